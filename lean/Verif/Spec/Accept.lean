import Verif.Spec.Objects

/-!
# The accepted formats

Which byte strings are read as blobs, trees, tags and commits, and what they
mean, including everything malformed that is let through. Written as grammars
over the bytes; the values are read off the header lines as a whole, not
collected in a loop.
-/

namespace Verif.Spec

/-! ## Lines -/

/-- `l` is the first line of the input and `r` what follows it, for a reader with
a buffer of `N` bytes: lines end in LF or CRLF, the last one may lack its end,
and a line as long as the buffer is cut there. -/
inductive Line (N : Nat) : Bytes → Bytes → Bytes → Prop
  | lf (l r : Bytes) (h : LF ∉ l) (hc : l.getLast? ≠ some CR) (hs : l.length < N) :
      Line N (l ++ LF :: r) l r
  | crlf (l r : Bytes) (h : LF ∉ l) (hs : l.length + 1 < N) : Line N (l ++ CR :: LF :: r) l r
  | last (l : Bytes) (hne : l ≠ []) (h : LF ∉ l) (hs : l.length < N) : Line N l l []
  | full (l r : Bytes) (h : LF ∉ l) (hc : l.getLast? ≠ some CR) (hs : l.length = N) :
      Line N (l ++ r) l r
  | fullCR (l r : Bytes) (h : LF ∉ l) (hs : l.length + 1 = N) : Line N (l ++ CR :: r) l (CR :: r)

/-- The lines that begin with the word `w`. -/
def linesWith (w : Bytes) (ls : List Bytes) : List Bytes := ls.filter (w.isPrefixOf ·)

/-- What stands behind the word `w` on the lines that begin with it. -/
def behind (w : Bytes) (ls : List Bytes) : List Bytes := (linesWith w ls).map (·.drop w.length)

/-- Two lists of the same length, related element by element. -/
def Pairs {α β : Type} (R : α → β → Prop) : List α → List β → Prop
  | [], [] => True
  | x :: xs, y :: ys => R x y ∧ Pairs R xs ys
  | _, _ => False

/-- Every text in `xs` has a value, and `v` is the value of the last, or `d` if
there is none. -/
def LastValue {α β : Type} (R : α → β → Prop) (xs : List α) (d v : β) : Prop :=
  ∃ ys, Pairs R xs ys ∧ v = ys.getLast?.getD d

/-! ## Persons -/

/-- Words with one space between them. -/
def spaces : List Bytes → Bytes
  | [] => []
  | [w] => w
  | w :: x :: r => w ++ SP :: spaces (x :: r)

/-- Without a `<` at the beginning. -/
def unopen (w : Bytes) : Bytes := if w.head? = some LT then w.tail else w

/-- The line is read as the person `p`: a word, at least two more words, of which
the first that begins with `<` begins the email. The email ends with the first
word from there that ends in `>`. A `<` is dropped from the front of each of
these words. The two words after the email are date and timezone; what follows
is ignored. Spaces before the name are ignored. -/
def PersonRead (line : Bytes) (p : PersonInfo) : Prop :=
  ∃ (w : Bytes) (name email : List Bytes) (end_ e : Bytes) (after : List Bytes),
    line = spaces (w :: (name ++ (email ++ end_ :: after))) ∧
    (∀ x ∈ w :: (name ++ (email ++ end_ :: after)), SP ∉ x) ∧
    2 ≤ (name ++ (email ++ end_ :: after)).length ∧
    (∀ x ∈ name, x.head? ≠ some LT) ∧
    (email ++ [end_]).head?.bind List.head? = some LT ∧
    (∀ x ∈ email, (unopen x).getLast? ≠ some GT) ∧
    unopen end_ = e ++ [GT] ∧
    p.name = spaces (name.dropWhile (· = [])) ∧
    p.email = spaces (email.map unopen ++ [e]) ∧
    p.date = after.head?.getD [] ∧
    p.timezone = after.tail.head?.getD []

/-! ## References -/

/-- The text `h` is a reference and `l` the link it stands for. -/
def RefLink (h : Bytes) (l : Link) : Prop := ∃ sha, Ref h sha ∧ l = gitLink sha

/-! ## Tags -/

/-- Header lines, then either the end or a blank line and the message. -/
inductive Head (N : Nat) : Bytes → List Bytes → Option Bytes → Prop
  | done : Head N [] [] none
  | blank (b r : Bytes) (h : Line N b [] r) : Head N b [] (some r)
  | line (b l r : Bytes) (ls : List Bytes) (m : Option Bytes) (h : Line N b l r) (hne : l ≠ [])
      (hr : Head N r ls m) : Head N b (l :: ls) m

/-- What header lines and message of a tag mean: of repeated headers the last
counts, but all must be valid; unknown ones are ignored. -/
structure TagMeans (ls : List Bytes) (m : Option Bytes) (t : Tag) : Prop where
  object : LastValue RefLink (behind b!"object " ls) .nil t.object
  typ : t.typ = (behind b!"type " ls).getLast?.getD []
  tag : t.tag = (behind b!"tag " ls).getLast?.getD []
  tagger : LastValue PersonRead (linesWith b!"tagger " ls) ⟨[], [], [], []⟩ t.tagger
  message : t.message = m.getD []

/-! ## Commits -/

/-- A piece of a commit's header: a line, a signature (the lines between begin and
end), or a merge tag (the text of its reference, its header lines, the lines of
its message; `none` if the stream ends before the separator line). -/
inductive Block where
  | line (l : Bytes)
  | sig (ls : List Bytes)
  | merge (h : Bytes) (ls : List Bytes) (msg : Option (List Bytes))

/-- The lines up to the line that ends the signature; `r` follows that line. -/
inductive SigBody (N : Nat) : Bytes → List Bytes → Bytes → Prop
  | stop (b r : Bytes) (h : Line N b sigEnd r) : SigBody N b [] r
  | more (b l r r' : Bytes) (ls : List Bytes) (h : Line N b l r) (hne : l ≠ sigEnd)
      (hr : SigBody N r ls r') : SigBody N b (l :: ls) r'

/-- The lines up to the separator line, a single space; `r` follows that line. -/
inductive MergeHead (N : Nat) : Bytes → List Bytes → Bytes → Prop
  | stop (b r : Bytes) (h : Line N b b!" " r) : MergeHead N b [] r
  | more (b l r r' : Bytes) (ls : List Bytes) (h : Line N b l r) (hne : l ≠ b!" ")
      (hr : MergeHead N r ls r') : MergeHead N b (l :: ls) r'

/-- All lines to the end of the stream, none of them the separator. -/
inductive MergeCut (N : Nat) : Bytes → List Bytes → Prop
  | stop : MergeCut N [] []
  | more (b l r : Bytes) (ls : List Bytes) (h : Line N b l r) (hne : l ≠ b!" ")
      (hr : MergeCut N r ls) : MergeCut N b (l :: ls)

/-- The lines that begin with a space, up to one that does not; `r` begins with
that line. -/
inductive MergeMsg (N : Nat) : Bytes → List Bytes → Bytes → Prop
  | stop (b l r : Bytes) (h : Line N b l r) (hne : l.head? ≠ some SP) : MergeMsg N b [] b
  | more (b l r r' : Bytes) (ls : List Bytes) (h : Line N b l r) (hsp : l.head? = some SP)
      (hr : MergeMsg N r ls r') : MergeMsg N b (l :: ls) r'

/-- The header blocks of a commit, then either the end or a blank line and the
message. -/
inductive Blocks (N : Nat) : Bytes → List Block → Option Bytes → Prop
  | done : Blocks N [] [] none
  | blank (b r : Bytes) (h : Line N b [] r) : Blocks N b [] (some r)
  | line (b l r : Bytes) (bs : List Block) (m : Option Bytes) (h : Line N b l r) (hne : l ≠ [])
      (hm : ¬ b!"mergetag object " <+: l) (hg : ¬ b!"gpgsig " <+: l)
      (hr : Blocks N r bs m) : Blocks N b (.line l :: bs) m
  | sig (b l r r' : Bytes) (ls : List Bytes) (bs : List Block) (m : Option Bytes) (h : Line N b l r)
      (hg : b!"gpgsig " <+: l) (hl : SigBody N r ls r')
      (hr : Blocks N r' bs m) : Blocks N b (.sig ls :: bs) m
  | merge (b x r r1 r2 : Bytes) (ls msg : List Bytes) (bs : List Block) (m : Option Bytes)
      (h : Line N b (b!"mergetag object " ++ x) r) (hh : MergeHead N r ls r1)
      (hl : MergeMsg N r1 msg r2) (hr : Blocks N r2 bs m) : Blocks N b (.merge x ls (some msg) :: bs) m
  | cut (b x r : Bytes) (ls : List Bytes) (h : Line N b (b!"mergetag object " ++ x) r)
      (hh : MergeCut N r ls) : Blocks N b [.merge x ls none] none

/-- The plain lines among the blocks. -/
def plainLines (bs : List Block) : List Bytes :=
  bs.filterMap fun | .line l => some l | _ => none

/-- The signatures among the blocks. -/
def signatures (bs : List Block) : List (List Bytes) :=
  bs.filterMap fun | .sig ls => some ls | _ => none

/-- The merge tags among the blocks. -/
def mergeTags (bs : List Block) : List (Bytes × List Bytes × Option (List Bytes)) :=
  bs.filterMap fun | .merge h ls msg => some (h, ls, msg) | _ => none

/-- What a merge tag means. Its header lines begin with a space. -/
structure MergeMeans (x : Bytes × List Bytes × Option (List Bytes)) (t : Tag) : Prop where
  object : RefLink x.1 t.object
  typ : t.typ = (behind b!" type " x.2.1).getLast?.getD []
  tag : t.tag = (behind b!" tag " x.2.1).getLast?.getD []
  tagger : LastValue PersonRead ((linesWith b!" tagger " x.2.1).map (·.drop 1)) ⟨[], [], [], []⟩ t.tagger
  message : t.message = unlines (x.2.2.getD [])

/-- The first line of a signature is a single space or one of two headers. -/
def SigStart (ls : List Bytes) : Prop :=
  ∃ l, ls.head? = some l ∧ (l = b!" " ∨ b!" Version: " <+: l ∨ b!" Comment: " <+: l)

/-- What the header blocks and the message of a commit mean: of repeated headers
the last counts, but all must be valid; parents, merge tags and unknown lines are
collected in order. -/
structure CommitMeans (bs : List Block) (m : Option Bytes) (c : Commit) : Prop where
  tree : LastValue RefLink (behind b!"tree " (plainLines bs)) .nil c.tree
  parents : Pairs RefLink (behind b!"parent " (plainLines bs)) c.parents
  author : ∃ ps, Pairs PersonRead (linesWith b!"author " (plainLines bs)) ps ∧ c.author = ps.getLast?
  committer : ∃ ps, Pairs PersonRead (linesWith b!"committer " (plainLines bs)) ps ∧
    c.committer = ps.getLast?
  encoding : c.encoding = (behind b!"encoding " (plainLines bs)).getLast?
  mergetag : Pairs MergeMeans (mergeTags bs) c.mergetag
  signature : (∀ ls ∈ signatures bs, SigStart ls) ∧ c.signature = (signatures bs).getLast?.map unlines
  other : c.other = (plainLines bs).filter fun l => knownHeaders.all fun w => !w.isPrefixOf l
  message : c.message = m.getD []

/-! ## Trees -/

/-- What may follow the last complete entry: nothing, or an entry cut off before
its hash. -/
def TreeTail (b : Bytes) : Prop :=
  SP ∉ b ∨ ∃ mode name, SP ∉ mode ∧ NUL ∉ name ∧
    (b = mode ++ SP :: name ∨ b = mode ++ SP :: (name ++ [NUL]))

/-! ## Objects -/

/-- A number in the size field: it must be a 64-bit integer and is otherwise
ignored. -/
def SizeField (d : Bytes) (z : Int) : Prop := NUL ∉ d ∧ Signed d z ∧ -(2 ^ 63 : Int) ≤ z ∧ z < 2 ^ 63

end Verif.Spec
