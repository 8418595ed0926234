"""Writes AXIOMS.md: the axioms on which each theorem of MANIFEST.json depends.

Run in /verif after `lake build`: python3 tools/axioms.py
"""
import json, os, re, subprocess, tempfile

root = os.path.dirname(os.path.dirname(os.path.abspath(__file__)))
claims = json.load(open(os.path.join(root, "MANIFEST.json")))["claims"]
names = sorted({t for c in claims for t in c["theorems"]})
src = "import Verif\nopen Verif Verif.Props\n" + "".join(f"#print axioms {n}\n" for n in names)
with tempfile.NamedTemporaryFile("w", suffix=".lean", delete=False) as f:
    f.write(src)
out = subprocess.run(["lake", "env", "lean", f.name], cwd=os.path.join(root, "lean"), capture_output=True, text=True).stdout
os.unlink(f.name)
dep = {}
for m in re.finditer(r"'([^']+(?:'[^' ]*)*)' (does not depend on any axioms|depends on axioms: \[([^\]]*)\])", out):
    dep[m.group(1).split(".")[-1]] = ", ".join(sorted(x.strip() for x in (m.group(3) or "").split(",") if x.strip()))
missing = [n for n in names if n.split(".")[-1] not in dep]
assert not missing, (missing, out[:2000])
groups = {}
for n in names:
    groups.setdefault(dep[n.split(".")[-1]], []).append(n)
with open(os.path.join(root, "AXIOMS.md"), "w") as f:
    f.write("# Axioms of each theorem in MANIFEST.json\n\nAs printed by `#print axioms`; written by `tools/axioms.py`.\n")
    for g in sorted(groups, key=lambda g: (g.count(","), g)):
        f.write(f"\n## {g or 'none'}\n\n" + "".join(f"* `{n}`\n" for n in groups[g]))
