import Verif.Model.Builders
import Verif.Model.Kinds
import Verif.Model.Lookup
import Verif.Model.EncodeNode

/-!
# Links followed

How a client of go-ipld-prime uses the package: a link system with the codec
registered (/repo/init.go:17-20), which loads and stores nodes, and path
traversal, which loads the target of every link it meets. Storage and the hash
function are parameters. `Load`, `Store` and `traversal` belong to go-ipld-prime
(go.mod:12); they are modelled from its documentation as far as they use this
package: `Decode`, `Encode`, lookups, `AsLink` and `LinkTargetNodePrototype`.
-/

namespace Verif

/-- A `LinkSystem` with the codec of this package registered for git-raw.
/repo/init.go:17-20. -/
structure LinkSys where
  /-- `StorageReadOpener`: the block under a CID -/
  get : Cid → Res Bytes
  /-- the hash function of sha1 multihashes -/
  sha1 : Bytes → Bytes
  /-- the error for a block that has another hash than its CID -/
  mismatch : Err
  /-- what is done with links that do not name a git object -/
  foreign : Link → Res Node

/-- The CID of a block of the git codec, `LinkPrototype.BuildLink` with the prefix of
/repo/git_test.go:23-28: version 1, git-raw, sha1, 20 bytes. -/
def cidOf (sha : Bytes) : Cid := ⟨1, gitRaw, mhEncodeSha1 sha⟩

/-- `basicnode.Prototype.Any.NewBuilder()` as the target of `Decode`
(/repo/unmarshal_test.go:24): it takes a node as it is and makes a plain bytes node
of bytes. -/
def anySink : Sink Node := ⟨fun o => .ok (.own o.own), fun b => .ok (.bytes b)⟩

/-- The prototype that traversal uses for the target of a link: that of
`LinkTargetNodePrototype()` if the link node is typed and has the method
(/repo/ipldsch_satisfaction.go:2003-2005, 8580-8582), else `Any`. -/
def Node.target : Node → Option Proto
  | .own v | .repr v => v.linkTarget?.map Own.proto
  | _ => none

/-- `LinkSystem.Load`: read the block, check its hash, decode it into a new
builder. Only CIDs with codec git-raw come to the decoder of this package. -/
def LinkSys.load (L : LinkSys) (pol : TreeAsm → Nat) (lnk : Link) (np : Option Proto) : Res Node :=
  match lnk with
  | .cid c =>
    if c = cidOf (c.hash.drop 2) then do
      let data ← L.get c
      if c = cidOf (L.sha1 data) then
        match np with
        | some P => do .ok (.own (← decode (P.sink pol) (⟨data, .eof, 4096⟩ : Stream)))
        | none => decode anySink (⟨data, .eof, 4096⟩ : Stream)
      else .err L.mismatch
    else L.foreign lnk
  | _ => L.foreign lnk

/-- `traversal`: a node of link kind is replaced by what the link names. -/
def LinkSys.deref (L : LinkSys) (pol : TreeAsm → Nat) (n : Node) : Res Node :=
  match n.asLink with
  | .ok lnk => L.load pol lnk n.target
  | _ => .ok n

/-- `traversal.Get`: look up a segment, follow the link if there is one, go on. -/
def LinkSys.walk (L : LinkSys) (pol : TreeAsm → Nat) : Node → List Seg → Res Node
  | n, [] => .ok n
  | n, g :: gs => do
    let m ← n.lookupSegment g
    let m ← L.deref pol m
    L.walk pol m gs

/-- `LinkSystem.Store` with the prefix of the git codec: encode, hash, keep the
block under its CID. The link alone is what `ComputeLink` returns. -/
def LinkSys.store (L : LinkSys) (n : Node) : Res (Cid × LinkSys) := do
  let b ← encodeBytes n
  let c := cidOf (L.sha1 b)
  .ok (c, { L with get := fun x => if x = c then .ok b else L.get x })

end Verif
