import Verif.Spec.Accept

/-!
# What is wrong with a refused object

For every error of `ParseObject` the inputs that get it, as grammars over the
bytes: a valid beginning, then the first thing that is wrong.
-/

namespace Verif.Spec

/-- The lines `ls`, all with the property `P`; `r` follows them. -/
inductive Lines (N : Nat) (P : Bytes → Prop) : Bytes → List Bytes → Bytes → Prop
  | none (b : Bytes) : Lines N P b [] b
  | more (b l r r' : Bytes) (ls : List Bytes) (h : Line N b l r) (hp : P l)
      (hr : Lines N P r ls r') : Lines N P b (l :: ls) r'

/-- What is wrong with a text that should be a reference. -/
inductive BadRef (h : Bytes) : Err → Prop
  | digits (hx : ∀ sha, ¬ HexOf h sha) : BadRef h .badHex
  | length (sha : Bytes) (hx : HexOf h sha) (hl : sha.length ≠ 20) : BadRef h .badSha

/-- The line begins with one of the words `refs` and the rest is no reference, or
with one of the words `persons` and is no person. -/
inductive BadLine (refs persons : List Bytes) : Bytes → Err → Prop
  | ref (w x : Bytes) (e : Err) (hw : w ∈ refs) (h : BadRef x e) : BadLine refs persons (w ++ x) e
  | person (w l : Bytes) (hw : w ∈ persons) (hl : w <+: l) (h : ∀ p, ¬ PersonRead l p) :
      BadLine refs persons l .badPerson

/-! ## Tags -/

/-- Header lines, then one that is wrong. -/
inductive TagFault (N : Nat) (b : Bytes) (ls : List Bytes) (e : Err) : Prop
  | line (r l r' : Bytes) (hs : Lines N (· ≠ []) b ls r) (h : Line N r l r')
      (hl : BadLine [b!"object "] [b!"tagger "] l e) : TagFault N b ls e

/-! ## Commits -/

/-- Lines of a merge tag, then a tagger that is wrong; or all of them, and a
message that has no end. -/
inductive MergeFault (N : Nat) (b : Bytes) (ls : List Bytes) : Err → Prop
  | tagger (r l r' : Bytes) (hs : Lines N (· ≠ b!" ") b ls r) (h : Line N r l r')
      (hl : b!" tagger " <+: l) (hp : ∀ p, ¬ PersonRead (l.drop 1) p) : MergeFault N b ls .badPerson
  | message (r : Bytes) (msg : List Bytes) (hh : MergeHead N b ls r)
      (hm : Lines N (·.head? = some SP) r msg []) : MergeFault N b ls .eof

/-- The header blocks of a commit, then something that is wrong. Of a merge tag
that is wrong, the block has what comes before that. -/
inductive Fault (N : Nat) : Bytes → List Block → Err → Prop
  | badLine (b l r : Bytes) (e : Err) (h : Line N b l r)
      (hl : BadLine [b!"tree ", b!"parent ", b!"mergetag object "] [b!"author ", b!"committer "] l e) :
      Fault N b [] e
  | badStart (b l r l' r' : Bytes) (h : Line N b l r) (hg : b!"gpgsig " <+: l) (hl : Line N r l' r')
      (hs : ¬ SigStart [l']) : Fault N b [] .badSig
  | openSig (b l r : Bytes) (ls : List Bytes) (h : Line N b l r) (hg : b!"gpgsig " <+: l)
      (hl : Lines N (· ≠ sigEnd) r ls []) (hs : ls = [] ∨ SigStart ls) : Fault N b [] .eof
  | badMerge (b x r : Bytes) (ls : List Bytes) (e : Err) (h : Line N b (b!"mergetag object " ++ x) r)
      (hm : MergeFault N r ls e) : Fault N b [.merge x ls none] e
  | line (b l r : Bytes) (bs : List Block) (e : Err) (h : Line N b l r) (hne : l ≠ [])
      (hm : ¬ b!"mergetag object " <+: l) (hg : ¬ b!"gpgsig " <+: l)
      (hr : Fault N r bs e) : Fault N b (.line l :: bs) e
  | sig (b l r r' : Bytes) (ls : List Bytes) (bs : List Block) (e : Err) (h : Line N b l r)
      (hg : b!"gpgsig " <+: l) (hl : SigBody N r ls r')
      (hr : Fault N r' bs e) : Fault N b (.sig ls :: bs) e
  | merge (b x r r1 r2 : Bytes) (ls msg : List Bytes) (bs : List Block) (e : Err)
      (h : Line N b (b!"mergetag object " ++ x) r) (hh : MergeHead N r ls r1)
      (hl : MergeMsg N r1 msg r2) (hr : Fault N r2 bs e) : Fault N b (.merge x ls (some msg) :: bs) e

/-! ## Objects -/

/-- Everything that is wrong with an input, and the error that is reported. -/
inductive Faulty (N : Nat) : Bytes → Err → Prop
  /-- No space at all; in particular nothing at all. -/
  | noType (b : Bytes) (h : SP ∉ b) : Faulty N b .unexpectedEof
  | badType (w r : Bytes) (h : SP ∉ w) (hw : w ∉ [b!"tree", b!"commit", b!"blob", b!"tag"]) :
      Faulty N (w ++ SP :: r) .badType
  | noSize (w r : Bytes) (hw : w ∈ [b!"tree", b!"commit", b!"blob", b!"tag"]) (h : NUL ∉ r) :
      Faulty N (w ++ SP :: r) .eof
  | badSize (w d r : Bytes) (hw : w ∈ [b!"tree", b!"commit", b!"blob"]) (hd : NUL ∉ d)
      (h : ∀ z, ¬ SizeField d z) : Faulty N (w ++ SP :: (d ++ NUL :: r)) .atoi
  | negative (d : Bytes) (z : Int) (r : Bytes) (hd : SizeField d z) (hz : z < 0) :
      Faulty N (b!"blob " ++ d ++ NUL :: r) .negSize
  | emptyBlob (d : Bytes) (z : Int) (hd : SizeField d z) (hz : 0 < z) :
      Faulty N (b!"blob " ++ d ++ [NUL]) .eof
  | shortBlob (d : Bytes) (z : Int) (r : Bytes) (hd : SizeField d z) (hne : r ≠ []) (hz : (r.length : Int) < z) :
      Faulty N (b!"blob " ++ d ++ NUL :: r) .unexpectedEof
  /-- The stream ends within the hash of an entry. -/
  | cutHash (d : Bytes) (z : Int) (es : List Entry) (mode name sha : Bytes) (hd : SizeField d z)
      (hes : EntriesOk es) (hm : SP ∉ mode) (hn : NUL ∉ name) (hne : sha ≠ []) (hl : sha.length < 20) :
      Faulty N (b!"tree " ++ d ++ NUL :: (treeBody es ++ (mode ++ SP :: (name ++ NUL :: sha)))) .unexpectedEof
  | repeated (d : Bytes) (z : Int) (es : List Entry) (x : Entry) (r : Bytes) (hd : SizeField d z)
      (hes : EntriesOk es) (hx : EntryOk x) (hn : x.name ∈ es.map (·.name)) :
      Faulty N (b!"tree " ++ d ++ NUL :: (treeBody es ++ (x.text ++ r))) .repeatedKey
  | tag (d body : Bytes) (ls : List Bytes) (t : Tag) (e : Err) (hd : NUL ∉ d) (h : TagFault N body ls e)
      (ht : TagMeans ls none t) : Faulty N (b!"tag " ++ d ++ NUL :: body) e
  | commit (d : Bytes) (z : Int) (body : Bytes) (bs : List Block) (c : Commit) (e : Err) (hd : SizeField d z)
      (h : Fault N body bs e) (hc : CommitMeans bs none c) : Faulty N (b!"commit " ++ d ++ NUL :: body) e

end Verif.Spec
