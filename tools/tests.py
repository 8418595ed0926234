"""Writes lean/Verif/Tests.lean from the objects in /repo/testdata.tar.gz."""
import tarfile, zlib, hashlib

def lit(d):
    out, line = [], ''
    for tok in ('[' + ', '.join(str(x) for x in d) + ']').split(' '):
        if len(line) + len(tok) > 108:
            out.append(line)
            line = ''
        line += (' ' if line else '') + tok
    return '\n    '.join(out + [line])

objs = []
with tarfile.open('/repo/testdata.tar.gz') as t:
    for m in t.getmembers():
        p = m.name.split('/')
        if m.isfile() and m.name.startswith('.git/objects/') and p[2] not in ('info', 'pack'):
            d = zlib.decompress(t.extractfile(m).read())
            assert hashlib.sha1(d).hexdigest() == p[2] + p[3]
            objs.append((p[2] + p[3], d))

L = ['''import Verif.Model.Builders
import Verif.Model.EncodeNode
import Verif.Model.Block

/-!
# The tests of the package, replayed on the model

These say nothing beyond themselves and no claim rests on them. They check the model
against what the tests of the package expect of the code: /repo/git_test.go,
/repo/unmarshal_test.go and the objects in /repo/testdata.tar.gz, decompressed.
Generated by tools/tests.py.
-/

namespace Verif.Tests

open Verif

/-- Parsing and encoding gives the same bytes again. -/
def again (b : Bytes) : Bool :=
  match parseObjectFromBuffer b with
  | .ok o => match encodeBytes (.own o.own) with | .ok c => c == b | _ => false
  | _ => false
''']
for n, d in sorted(objs):
    L.append(f'''/-- /repo/testdata.tar.gz: {d.split(b' ')[0].decode()} {n}. -/
example : again
    {lit(d)} = true := by
  decide +kernel
''')

def s(x): return 'b!' + '"' + x.replace('"', '\\"') + '"'
def u(x): return lit(x.encode()) if any(ord(c) > 127 for c in x) else s(x)
people = [
    ("Someone <some@one.somewhere> 123456 +0123", "Someone", "some@one.somewhere", "123456", "+0123"),
    ("So Me One <some@one.somewhere> 123456 +0123", "So Me One", "some@one.somewhere", "123456", "+0123"),
    ("Some One & Other One <some@one.somewhere, other@one.elsewhere> 987654 +4321", "Some One & Other One", "some@one.somewhere, other@one.elsewhere", "987654", "+4321"),
    (" <some@one.somewhere> 987654 +4321", "", "some@one.somewhere", "987654", "+4321"),
    ("Someone  <some@one.somewhere> 987654 +4321", "Someone ", "some@one.somewhere", "987654", "+4321"),
    ("Someone <some.one@some.where>", "Someone", "some.one@some.where", "", ""),
    ("Łukasz Magiera <magik6k@users.noreply.github.com> 1546187652 +0100", "Łukasz Magiera", "magik6k@users.noreply.github.com", "1546187652", "+0100"),
    ("Sameer <sameer@users.noreply.github.com> 1545162499 -0500", "Sameer", "sameer@users.noreply.github.com", "1545162499", "-0500"),
]
for p in people:
    L.append(f'''/-- /repo/git_test.go:236-401. -/
example :
    parsePersonInfo ({u("prefix " + p[0])}) =
      .ok ⟨{u(p[1])}, {u(p[2])}, {u(p[3])}, {u(p[4])}⟩ ∧
    gitString ⟨{u(p[1])}, {u(p[2])}, {u(p[3])}, {u(p[4])}⟩ = {u(p[0])} := by
  decide +kernel
''')
for x, e in (("", "unexpectedEof"), ("  ", "badType"), ("foo", "unexpectedEof"), ("foo ", "badType")):
    L.append(f'''/-- /repo/unmarshal_test.go:17-21. -/
example : parseObjectFromBuffer {s(x)} = .err .{e} := by decide +kernel
''')
L.append('end Verif.Tests')
open('/verif/lean/Verif/Tests.lean', 'w').write('\n'.join(L) + '\n')
