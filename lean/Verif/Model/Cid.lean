import Verif.Basic

/-!
# Links (`/repo/util.go`)
-/

namespace Verif

/-- A CID: version, codec and multihash bytes (what `Cid.Hash()` returns). The
undefined CID has an empty multihash. Used in /repo/util.go:16-38. -/
structure Cid where
  version : Nat
  codec : Nat
  hash : Bytes
  deriving DecidableEq, Repr

/-- A value of the interface type `ipld.Link`: nil (the zero value of the
generated link types), a `cidlink.Link`, or some other implementation.
/repo/ipldsch_types.go:74, 88, 145. -/
inductive Link where
  | nil
  | cid (c : Cid)
  | other (n : Nat)
  deriving DecidableEq, Repr

/-- `cid.GitRaw`. /repo/util.go:24. -/
def gitRaw : Nat := 0x78

/-- `mh.SHA1`. /repo/util.go:20. -/
def mhSha1 : Nat := 0x11

/-- `gitSHALen`, /repo/util.go:15. -/
def gitShaLen : Nat := 20

/-- `mh.Encode(sha, mh.SHA1)` for a 20-byte digest: the varints of code 0x11 and
of the length 20 are single bytes. /repo/util.go:21 is only reached with length
20. -/
def mhEncodeSha1 (sha : Bytes) : Bytes := 0x11 :: 0x14 :: sha

/-- `shaToCid`, /repo/util.go:17-26. -/
def shaToCid (sha : Bytes) : Res Cid :=
  if sha.length ≠ gitShaLen then .err .badSha
  else .ok { version := 1, codec := gitRaw, hash := mhEncodeSha1 sha }

/-- `cidToSha`, /repo/util.go:28-31: `h[len(h)-20:]` panics for shorter hashes. -/
def cidToSha (c : Cid) : Res Bytes :=
  if c.hash.length < 20 then .panic else .ok (c.hash.drop (c.hash.length - 20))

/-- `sha(l)` and the `sha` methods of `Link`, `Tree_Link` and `Commit_Link`,
/repo/util.go:33-63: nil unless `l` is a `cidlink.Link`. -/
def linkSha : Link → Res Bytes
  | .cid c => cidToSha c
  | _ => .ok []

end Verif
