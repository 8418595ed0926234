import Verif.Spec.Gen

/-!
# Lemmas about the schema
-/

namespace Verif

open Spec

/-! ## What is read is determined -/

mutual
theorem reads_unique {n : Node} {d e : Data} (h : Reads n d) (h' : Reads n e) : d = e := by
  cases h with
  | absent =>
    cases h' with
    | absent => rfl
    | str hk _ => cases hk
    | bytes hk _ => cases hk
    | link hk _ => cases hk
    | list hk _ _ => cases hk
    | map hk _ _ => cases hk
  | str hk ha =>
    cases h' with
    | absent => cases hk
    | str _ ha' => rw [ha] at ha'; cases ha'; rfl
    | bytes hk' _ => rw [hk] at hk'; cases hk'
    | link hk' _ => rw [hk] at hk'; cases hk'
    | list hk' _ _ => rw [hk] at hk'; cases hk'
    | map hk' _ _ => rw [hk] at hk'; cases hk'
  | bytes hk ha =>
    cases h' with
    | absent => cases hk
    | bytes _ ha' => rw [ha] at ha'; cases ha'; rfl
    | str hk' _ => rw [hk] at hk'; cases hk'
    | link hk' _ => rw [hk] at hk'; cases hk'
    | list hk' _ _ => rw [hk] at hk'; cases hk'
    | map hk' _ _ => rw [hk] at hk'; cases hk'
  | link hk ha =>
    cases h' with
    | absent => cases hk
    | link _ ha' => rw [ha] at ha'; cases ha'; rfl
    | str hk' _ => rw [hk] at hk'; cases hk'
    | bytes hk' _ => rw [hk] at hk'; cases hk'
    | list hk' _ _ => rw [hk] at hk'; cases hk'
    | map hk' _ _ => rw [hk] at hk'; cases hk'
  | list hk hi hr =>
    cases h' with
    | absent => cases hk
    | list _ hi' hr' => rw [hi] at hi'; cases hi'; rw [readsList_unique hr hr']
    | str hk' _ => rw [hk] at hk'; cases hk'
    | bytes hk' _ => rw [hk] at hk'; cases hk'
    | link hk' _ => rw [hk] at hk'; cases hk'
    | map hk' _ _ => rw [hk] at hk'; cases hk'
  | map hk hi hr =>
    cases h' with
    | absent => cases hk
    | map _ hi' hr' => rw [hi] at hi'; cases hi'; rw [readsMap_unique hr hr']
    | str hk' _ => rw [hk] at hk'; cases hk'
    | bytes hk' _ => rw [hk] at hk'; cases hk'
    | link hk' _ => rw [hk] at hk'; cases hk'
    | list hk' _ _ => rw [hk] at hk'; cases hk'
theorem readsList_unique {ns : List Node} {d e : List Data} (h : ReadsList ns d)
    (h' : ReadsList ns e) : d = e := by
  cases h with
  | nil => cases h'; rfl
  | cons h1 h2 =>
    cases h' with
    | cons h1' h2' => rw [reads_unique h1 h1', readsList_unique h2 h2']
theorem readsMap_unique {ns : List (Bytes × Node)} {d e : List (Bytes × Data)} (h : ReadsMap ns d)
    (h' : ReadsMap ns e) : d = e := by
  cases h with
  | nil => cases h'; rfl
  | cons h1 h2 =>
    cases h' with
    | cons h1' h2' => rw [reads_unique h1 h1', readsMap_unique h2 h2']
end

/-! ## The data of each type -/

def personData (p : PersonInfo) : Data := .map [
  (b!"date", .str p.date), (b!"timezone", .str p.timezone), (b!"email", .str p.email),
  (b!"name", .str p.name)]

def tagData (t : Tag) : Data := .map [
  (b!"object", .link t.object), (b!"type", .str t.typ), (b!"tag", .str t.tag),
  (b!"tagger", personData t.tagger), (b!"message", .str t.message)]

def entryData (e : TreeEntry) : Data := .map [(b!"mode", .str e.mode), (b!"hash", .link e.hash)]

def optData {α : Type} (repr : Bool) (k : Bytes) (f : α → Data) : Option α → List (Bytes × Data)
  | some a => [(k, f a)]
  | none => if repr then [] else [(k, .absent)]

def commitData (repr : Bool) (c : Commit) : Data := .map (
  (b!"tree", .link c.tree) :: (b!"parents", .list (c.parents.map .link)) ::
  (b!"message", .str c.message) ::
  (optData repr b!"author" personData c.author ++
  (optData repr b!"committer" personData c.committer ++
  (optData repr b!"encoding" .str c.encoding ++
  (optData repr b!"signature" .str c.signature ++
  [(b!"mergetag", .list (c.mergetag.map tagData)),
   (b!"other", .list (c.other.map .str))])))))

/-- What is read from a node. -/
def ownData (repr : Bool) : Own → Data
  | .blob b => .bytes b
  | .string b | .gpgSig b => .str b
  | .link l | .treeLink l | .commitLink l => .link l
  | .linkList ls => .list (ls.map .link)
  | .stringList ls => .list (ls.map .str)
  | .tagList ts => .list (ts.map tagData)
  | .person p => personData p
  | .treeEntry e => entryData e
  | .tree t => .map (t.t.map fun r => (r.1, entryData r.2))
  | .tag t => tagData t
  | .commit c => commitData repr c

/-- The node of one of the two views. -/
def viewOf (repr : Bool) (v : Own) : Node := if repr then v.representation else .own v

theorem readsList_map {α : Type} (f : α → Node) (g : α → Data) (l : List α)
    (h : ∀ a, Reads (f a) (g a)) : ReadsList (l.map f) (l.map g) := by
  induction l with
  | nil => exact .nil
  | cons a l ih => exact .cons (h a) ih

theorem readsMap_map {α : Type} (f : α → Node) (g : α → Data) (l : List (Bytes × α))
    (h : ∀ a, Reads (f a) (g a)) :
    ReadsMap (l.map fun r => (r.1, f r.2)) (l.map fun r => (r.1, g r.2)) := by
  induction l with
  | nil => exact .nil
  | cons a l ih => exact .cons (h a.2) ih

theorem readsMap_append {a b : List (Bytes × Node)} {c d : List (Bytes × Data)}
    (h : ReadsMap a c) (h' : ReadsMap b d) : ReadsMap (a ++ b) (c ++ d) := by
  induction a generalizing c with
  | nil => cases h; exact h'
  | cons x a ih =>
    cases h with
    | cons h1 h2 => exact .cons h1 (ih h2)

theorem reads_string (repr : Bool) (b : Bytes) : Reads (viewOf repr (.string b)) (.str b) := by
  cases repr <;> exact .str rfl rfl
theorem reads_gpgSig (repr : Bool) (b : Bytes) : Reads (viewOf repr (.gpgSig b)) (.str b) := by
  cases repr <;> exact .str rfl rfl
theorem reads_link (repr : Bool) (l : Link) : Reads (viewOf repr (.link l)) (.link l) := by
  cases repr <;> exact .link rfl rfl
theorem reads_treeLink (repr : Bool) (l : Link) : Reads (viewOf repr (.treeLink l)) (.link l) := by
  cases repr <;> exact .link rfl rfl
theorem reads_commitLink (repr : Bool) (l : Link) :
    Reads (viewOf repr (.commitLink l)) (.link l) := by
  cases repr <;> exact .link rfl rfl

theorem reads_person (repr : Bool) (p : PersonInfo) :
    Reads (viewOf repr (.person p)) (personData p) := by
  cases repr
  · exact .map rfl rfl (.cons (reads_string false _) (.cons (reads_string false _)
      (.cons (reads_string false _) (.cons (reads_string false _) .nil))))
  · exact .map rfl rfl (.cons (reads_string true _) (.cons (reads_string true _)
      (.cons (reads_string true _) (.cons (reads_string true _) .nil))))

theorem reads_entry (repr : Bool) (e : TreeEntry) :
    Reads (viewOf repr (.treeEntry e)) (entryData e) := by
  cases repr
  · exact .map rfl rfl (.cons (reads_string false _) (.cons (reads_link false _) .nil))
  · exact .map rfl rfl (.cons (reads_string true _) (.cons (reads_link true _) .nil))

theorem reads_tag (repr : Bool) (t : Tag) : Reads (viewOf repr (.tag t)) (tagData t) := by
  cases repr
  · exact .map rfl rfl (.cons (reads_link false _) (.cons (reads_string false _)
      (.cons (reads_string false _) (.cons (reads_person false _)
      (.cons (reads_string false _) .nil)))))
  · exact .map rfl rfl (.cons (reads_link true _) (.cons (reads_string true _)
      (.cons (reads_string true _) (.cons (reads_person true _)
      (.cons (reads_string true _) .nil)))))

theorem reads_linkList (repr : Bool) (l : List Link) :
    Reads (viewOf repr (.linkList l)) (.list (l.map .link)) := by
  cases repr
  · exact .list rfl rfl (readsList_map _ _ _ (reads_commitLink false))
  · exact .list rfl rfl (readsList_map _ _ _ (reads_commitLink true))

theorem reads_stringList (repr : Bool) (l : List Bytes) :
    Reads (viewOf repr (.stringList l)) (.list (l.map .str)) := by
  cases repr
  · exact .list rfl rfl (readsList_map _ _ _ (reads_string false))
  · exact .list rfl rfl (readsList_map _ _ _ (reads_string true))

theorem reads_tagList (repr : Bool) (l : List Tag) :
    Reads (viewOf repr (.tagList l)) (.list (l.map tagData)) := by
  cases repr
  · exact .list rfl rfl (readsList_map _ _ _ (reads_tag false))
  · exact .list rfl rfl (readsList_map _ _ _ (reads_tag true))

theorem reads_tree (repr : Bool) (t : Tree) :
    Reads (viewOf repr (.tree t)) (ownData repr (.tree t)) := by
  cases repr
  · exact .map rfl rfl (readsMap_map _ _ _ (reads_entry false))
  · exact .map rfl rfl (readsMap_map _ _ _ (reads_entry true))

theorem reads_optEntry {α : Type} (k : Bytes) (f : α → Own) (g : α → Data) (o : Option α)
    (h : ∀ a, Reads (viewOf true (f a)) (g a)) :
    ReadsMap (optEntry k f o) (optData true k g o) := by
  cases o with
  | none => exact .nil
  | some a => exact .cons (h a) .nil

theorem reads_optNode {α : Type} (k : Bytes) (f : α → Own) (g : α → Data) (o : Option α)
    (h : ∀ a, Reads (viewOf false (f a)) (g a)) :
    ReadsMap [(k, optNode f o)] (optData false k g o) := by
  cases o with
  | none => exact .cons .absent .nil
  | some a => exact .cons (h a) .nil

theorem reads_commit (repr : Bool) (c : Commit) :
    Reads (viewOf repr (.commit c)) (commitData repr c) := by
  cases repr
  · exact .map rfl rfl (.cons (reads_treeLink false _) (.cons (reads_linkList false _)
      (.cons (reads_string false _)
      (readsMap_append (reads_optNode b!"author" .person personData c.author (reads_person false))
      (readsMap_append
        (reads_optNode b!"committer" .person personData c.committer (reads_person false))
      (readsMap_append (reads_optNode b!"encoding" .string .str c.encoding (reads_string false))
      (readsMap_append (reads_optNode b!"signature" .gpgSig .str c.signature (reads_gpgSig false))
      (.cons (reads_tagList false _) (.cons (reads_stringList false _) .nil)))))))))
  · refine .map rfl rfl ?_
    show ReadsMap (Own.reprEntries (.commit c)) _
    simp only [Own.reprEntries, List.append_assoc, List.cons_append, List.nil_append]
    exact .cons (reads_treeLink true _) (.cons (reads_linkList true _)
      (.cons (reads_string true _)
      (readsMap_append (reads_optEntry b!"author" .person personData c.author (reads_person true))
      (readsMap_append
        (reads_optEntry b!"committer" .person personData c.committer (reads_person true))
      (readsMap_append (reads_optEntry b!"encoding" .string .str c.encoding (reads_string true))
      (readsMap_append (reads_optEntry b!"signature" .gpgSig .str c.signature (reads_gpgSig true))
      (.cons (reads_tagList true _) (.cons (reads_stringList true _) .nil))))))))

/-- Every node is read as its data. -/
theorem reads_own (repr : Bool) (v : Own) : Reads (viewOf repr v) (ownData repr v) := by
  cases v with
  | blob b => cases repr <;> exact .bytes rfl rfl
  | string b => exact reads_string repr b
  | gpgSig b => exact reads_gpgSig repr b
  | link l => exact reads_link repr l
  | treeLink l => exact reads_treeLink repr l
  | commitLink l => exact reads_commitLink repr l
  | linkList l => exact reads_linkList repr l
  | stringList l => exact reads_stringList repr l
  | tagList l => exact reads_tagList repr l
  | person p => exact reads_person repr p
  | treeEntry e => exact reads_entry repr e
  | tree t => exact reads_tree repr t
  | tag t => exact reads_tag repr t
  | commit c => exact reads_commit repr c

/-! ## Data of a type -/

theorem conf_person (repr : Bool) (p : PersonInfo) : Conforms repr .person (personData p) :=
  .struct rfl (.there (.str rfl) (.there (.str rfl) (.there (.str rfl) (.there (.str rfl) .nil))))

theorem conf_entry (repr : Bool) (e : TreeEntry) : Conforms repr .treeEntry (entryData e) :=
  .struct rfl (.there (.str rfl) (.there (.link rfl) .nil))

theorem conf_tag (repr : Bool) (t : Tag) : Conforms repr .tag (tagData t) :=
  .struct rfl (.there (.link rfl) (.there (.str rfl) (.there (.str rfl)
    (.there (conf_person repr _) (.there (.str rfl) .nil)))))

theorem conf_list {α : Type} (repr : Bool) (t e : Ty) (h : schema t = .list e) (f : α → Data)
    (hf : ∀ a, Conforms repr e (f a)) (l : List α) : Conforms repr t (.list (l.map f)) := by
  refine .list h ?_
  intro d hd
  obtain ⟨a, _, rfl⟩ := List.mem_map.1 hd
  exact hf a

theorem fields_opt {α : Type} (repr : Bool) (f : Field) (ho : f.optional = true) (g : α → Data)
    (hg : ∀ a, Conforms repr f.type (g a)) (o : Option α) {fs es} (h : Fields repr fs es) :
    Fields repr (f :: fs) (optData repr f.name g o ++ es) := by
  cases o with
  | some a => exact .there (hg a) h
  | none =>
    cases repr
    · exact .absent rfl ho h
    · exact .out rfl ho h

theorem conf_commit (repr : Bool) (c : Commit) : Conforms repr .commit (commitData repr c) :=
  .struct rfl (.there (.link rfl) (.there (conf_list repr .linkList .commitLink rfl _ (fun _ => .link rfl) _)
    (.there (.str rfl)
    (fields_opt repr ⟨b!"author", .person, true⟩ rfl personData (conf_person repr) c.author
    (fields_opt repr ⟨b!"committer", .person, true⟩ rfl personData (conf_person repr) c.committer
    (fields_opt repr ⟨b!"encoding", .string, true⟩ rfl .str (fun _ => .str rfl) c.encoding
    (fields_opt repr ⟨b!"signature", .gpgSig, true⟩ rfl .str (fun _ => .str rfl) c.signature
    (.there (conf_list repr .tagList .tag rfl _ (conf_tag repr) _)
    (.there (conf_list repr .stringList .string rfl _ (fun _ => .str rfl) _) .nil)))))))))

/-- Every value is of its type, trees if their names are distinct. -/
theorem conf_own (repr : Bool) (v : Own) (h : ∀ t, v = .tree t → (t.t.map Prod.fst).Nodup) :
    Conforms repr (tyOf v) (ownData repr v) := by
  cases v with
  | blob b => exact .bytes rfl
  | string b => exact .str rfl
  | gpgSig b => exact .str rfl
  | link l => exact .link rfl
  | treeLink l => exact .link rfl
  | commitLink l => exact .link rfl
  | linkList l => exact conf_list repr .linkList .commitLink rfl _ (fun _ => .link rfl) _
  | stringList l => exact conf_list repr .stringList .string rfl _ (fun _ => .str rfl) _
  | tagList l => exact conf_list repr .tagList .tag rfl _ (conf_tag repr) _
  | person p => exact conf_person repr p
  | treeEntry e => exact conf_entry repr e
  | tree t =>
    refine .map rfl ?_ ?_
    · simpa [List.map_map, Function.comp_def] using h t rfl
    · intro p hp
      obtain ⟨r, _, rfl⟩ := List.mem_map.1 hp
      exact conf_entry repr r.2
  | tag t => exact conf_tag repr t
  | commit c => exact conf_commit repr c

/-! ## Every data of a type is the data of a value -/

/-- What a list of data of a type consists of, given what one of them is. -/
theorem data_list {α : Type} (f : α → Data) (ds : List Data) (h : ∀ d ∈ ds, ∃ a, d = f a) :
    ∃ l : List α, ds = l.map f := by
  induction ds with
  | nil => exact ⟨[], rfl⟩
  | cons d ds ih =>
    obtain ⟨a, rfl⟩ := h d (by simp)
    obtain ⟨l, rfl⟩ := ih fun d hd => h d (List.mem_cons_of_mem _ hd)
    exact ⟨a :: l, rfl⟩

theorem data_map {α : Type} (f : α → Data) (es : List (Bytes × Data))
    (h : ∀ p ∈ es, ∃ a, p.2 = f a) : ∃ l : List (Bytes × α), es = l.map fun r => (r.1, f r.2) := by
  induction es with
  | nil => exact ⟨[], rfl⟩
  | cons p es ih =>
    obtain ⟨a, ha⟩ := h p (by simp)
    obtain ⟨l, rfl⟩ := ih fun d hd => h d (List.mem_cons_of_mem _ hd)
    exact ⟨(p.1, a) :: l, by simp [← ha]⟩

theorem inv_string {repr : Bool} {t : Ty} {d : Data} (ht : schema t = .string)
    (h : Conforms repr t d) : ∃ b, d = .str b := by
  cases h with
  | str _ => exact ⟨_, rfl⟩
  | bytes h => rw [ht] at h; cases h
  | link h => rw [ht] at h; cases h
  | list h _ => rw [ht] at h; cases h
  | map h _ _ => rw [ht] at h; cases h
  | struct h _ => rw [ht] at h; cases h

theorem inv_bytes {repr : Bool} {t : Ty} {d : Data} (ht : schema t = .bytes)
    (h : Conforms repr t d) : ∃ b, d = .bytes b := by
  cases h with
  | bytes _ => exact ⟨_, rfl⟩
  | str h => rw [ht] at h; cases h
  | link h => rw [ht] at h; cases h
  | list h _ => rw [ht] at h; cases h
  | map h _ _ => rw [ht] at h; cases h
  | struct h _ => rw [ht] at h; cases h

theorem inv_link {repr : Bool} {t : Ty} {d : Data} {g : Option Ty} (ht : schema t = .link g)
    (h : Conforms repr t d) : ∃ l, d = .link l := by
  cases h with
  | link _ => exact ⟨_, rfl⟩
  | str h => rw [ht] at h; cases h
  | bytes h => rw [ht] at h; cases h
  | list h _ => rw [ht] at h; cases h
  | map h _ _ => rw [ht] at h; cases h
  | struct h _ => rw [ht] at h; cases h

theorem inv_list {repr : Bool} {t e : Ty} {d : Data} (ht : schema t = .list e)
    (h : Conforms repr t d) : ∃ ds, d = .list ds ∧ ∀ d ∈ ds, Conforms repr e d := by
  cases h with
  | list h hd => rw [ht] at h; cases h; exact ⟨_, rfl, hd⟩
  | str h => rw [ht] at h; cases h
  | bytes h => rw [ht] at h; cases h
  | link h => rw [ht] at h; cases h
  | map h _ _ => rw [ht] at h; cases h
  | struct h _ => rw [ht] at h; cases h

theorem inv_map {repr : Bool} {t v : Ty} {d : Data} (ht : schema t = .map v)
    (h : Conforms repr t d) : ∃ es, d = .map es ∧ (es.map Prod.fst).Nodup ∧
      ∀ p ∈ es, Conforms repr v p.2 := by
  cases h with
  | map h hn hd => rw [ht] at h; cases h; exact ⟨_, rfl, hn, hd⟩
  | str h => rw [ht] at h; cases h
  | bytes h => rw [ht] at h; cases h
  | link h => rw [ht] at h; cases h
  | list h _ => rw [ht] at h; cases h
  | struct h _ => rw [ht] at h; cases h

theorem inv_struct {repr : Bool} {t : Ty} {d : Data} {fs : List Field} (ht : schema t = .struct fs)
    (h : Conforms repr t d) : ∃ es, d = .map es ∧ Fields repr fs es := by
  cases h with
  | struct h hd => rw [ht] at h; cases h; exact ⟨_, rfl, hd⟩
  | str h => rw [ht] at h; cases h
  | bytes h => rw [ht] at h; cases h
  | link h => rw [ht] at h; cases h
  | list h _ => rw [ht] at h; cases h
  | map h _ _ => rw [ht] at h; cases h

theorem inv_field {repr : Bool} {f : Field} {fs es} (hf : f.optional = false)
    (h : Fields repr (f :: fs) es) : ∃ d es', es = (f.name, d) :: es' ∧ Conforms repr f.type d ∧
      Fields repr fs es' := by
  cases h with
  | there h1 h2 => exact ⟨_, _, rfl, h1, h2⟩
  | out _ h _ => rw [hf] at h; cases h
  | absent _ h _ => rw [hf] at h; cases h

theorem inv_opt {α : Type} {repr : Bool} {f : Field} {fs es} (g : α → Data)
    (hg : ∀ d, Conforms repr f.type d → ∃ a, d = g a) (h : Fields repr (f :: fs) es) :
    ∃ o es', es = optData repr f.name g o ++ es' ∧ Fields repr fs es' := by
  cases h with
  | there h1 h2 =>
    obtain ⟨a, rfl⟩ := hg _ h1
    exact ⟨some a, _, rfl, h2⟩
  | out hr _ h => subst hr; exact ⟨none, _, rfl, h⟩
  | absent hr _ h => subst hr; exact ⟨none, _, rfl, h⟩

theorem inv_nil {repr : Bool} {es} (h : Fields repr [] es) : es = [] := by cases h; rfl

theorem inv_person {repr : Bool} {d : Data} (h : Conforms repr .person d) :
    ∃ p, d = personData p := by
  obtain ⟨es1, rfl, g1⟩ := inv_struct rfl h
  obtain ⟨d1, es2, rfl, c1, g2⟩ := inv_field rfl g1
  obtain ⟨d2, es3, rfl, c2, g3⟩ := inv_field rfl g2
  obtain ⟨d3, es4, rfl, c3, g4⟩ := inv_field rfl g3
  obtain ⟨d4, es5, rfl, c4, g5⟩ := inv_field rfl g4
  obtain rfl := inv_nil g5
  obtain ⟨b1, rfl⟩ := inv_string rfl c1
  obtain ⟨b2, rfl⟩ := inv_string rfl c2
  obtain ⟨b3, rfl⟩ := inv_string rfl c3
  obtain ⟨b4, rfl⟩ := inv_string rfl c4
  exact ⟨⟨b4, b3, b1, b2⟩, rfl⟩

theorem inv_entry {repr : Bool} {d : Data} (h : Conforms repr .treeEntry d) :
    ∃ e, d = entryData e := by
  obtain ⟨es1, rfl, g1⟩ := inv_struct rfl h
  obtain ⟨d1, es2, rfl, c1, g2⟩ := inv_field rfl g1
  obtain ⟨d2, es3, rfl, c2, g3⟩ := inv_field rfl g2
  obtain rfl := inv_nil g3
  obtain ⟨b1, rfl⟩ := inv_string rfl c1
  obtain ⟨b2, rfl⟩ := inv_link rfl c2
  exact ⟨⟨b1, b2⟩, rfl⟩

theorem inv_tag {repr : Bool} {d : Data} (h : Conforms repr .tag d) : ∃ t, d = tagData t := by
  obtain ⟨es1, rfl, g1⟩ := inv_struct rfl h
  obtain ⟨d1, es2, rfl, c1, g2⟩ := inv_field rfl g1
  obtain ⟨d2, es3, rfl, c2, g3⟩ := inv_field rfl g2
  obtain ⟨d3, es4, rfl, c3, g4⟩ := inv_field rfl g3
  obtain ⟨d4, es5, rfl, c4, g5⟩ := inv_field rfl g4
  obtain ⟨d5, es6, rfl, c5, g6⟩ := inv_field rfl g5
  obtain rfl := inv_nil g6
  obtain ⟨b1, rfl⟩ := inv_link rfl c1
  obtain ⟨b2, rfl⟩ := inv_string rfl c2
  obtain ⟨b3, rfl⟩ := inv_string rfl c3
  obtain ⟨b4, rfl⟩ := inv_person c4
  obtain ⟨b5, rfl⟩ := inv_string rfl c5
  exact ⟨⟨b1, b2, b3, b4, b5⟩, rfl⟩

theorem inv_linkList {repr : Bool} {d : Data} (h : Conforms repr .linkList d) :
    ∃ l : List Link, d = .list (l.map .link) := by
  obtain ⟨ds, rfl, g1⟩ := inv_list rfl h
  obtain ⟨l, rfl⟩ := data_list .link ds fun d hd => inv_link rfl (g1 d hd)
  exact ⟨l, rfl⟩

theorem inv_stringList {repr : Bool} {d : Data} (h : Conforms repr .stringList d) :
    ∃ l : List Bytes, d = .list (l.map .str) := by
  obtain ⟨ds, rfl, g1⟩ := inv_list rfl h
  obtain ⟨l, rfl⟩ := data_list .str ds fun d hd => inv_string rfl (g1 d hd)
  exact ⟨l, rfl⟩

theorem inv_tagList {repr : Bool} {d : Data} (h : Conforms repr .tagList d) :
    ∃ l : List Tag, d = .list (l.map tagData) := by
  obtain ⟨ds, rfl, g1⟩ := inv_list rfl h
  obtain ⟨l, rfl⟩ := data_list tagData ds fun d hd => inv_tag (g1 d hd)
  exact ⟨l, rfl⟩

theorem inv_commit {repr : Bool} {d : Data} (h : Conforms repr .commit d) :
    ∃ c, d = commitData repr c := by
  obtain ⟨es1, rfl, g1⟩ := inv_struct rfl h
  obtain ⟨d1, es2, rfl, c1, g2⟩ := inv_field rfl g1
  obtain ⟨d2, es3, rfl, c2, g3⟩ := inv_field rfl g2
  obtain ⟨d3, es4, rfl, c3, g4⟩ := inv_field rfl g3
  obtain ⟨a, es5, rfl, g5⟩ := inv_opt personData (fun _ => inv_person) g4
  obtain ⟨k, es6, rfl, g6⟩ := inv_opt personData (fun _ => inv_person) g5
  obtain ⟨e, es7, rfl, g7⟩ := inv_opt .str (fun _ => inv_string rfl) g6
  obtain ⟨s, es8, rfl, g8⟩ := inv_opt .str (fun _ => inv_string rfl) g7
  obtain ⟨d4, es9, rfl, c4, g9⟩ := inv_field rfl g8
  obtain ⟨d5, es10, rfl, c5, g10⟩ := inv_field rfl g9
  obtain rfl := inv_nil g10
  obtain ⟨b1, rfl⟩ := inv_link rfl c1
  obtain ⟨b2, rfl⟩ := inv_linkList c2
  obtain ⟨b3, rfl⟩ := inv_string rfl c3
  obtain ⟨b4, rfl⟩ := inv_tagList c4
  obtain ⟨b5, rfl⟩ := inv_stringList c5
  exact ⟨⟨b1, b2, b3, a, k, e, s, b4, b5⟩, rfl⟩

/-- Data of a type is the data of a value of that type. -/
theorem inv_own {repr : Bool} {t : Ty} {d : Data} (h : Conforms repr t d) :
    ∃ v, tyOf v = t ∧ ownData repr v = d ∧ (∀ t, v = .tree t → t.m = t.t ∧ (t.t.map Prod.fst).Nodup) := by
  cases t with
  | blob => obtain ⟨b, rfl⟩ := inv_bytes rfl h; exact ⟨.blob b, rfl, rfl, nofun⟩
  | string => obtain ⟨b, rfl⟩ := inv_string rfl h; exact ⟨.string b, rfl, rfl, nofun⟩
  | gpgSig => obtain ⟨b, rfl⟩ := inv_string rfl h; exact ⟨.gpgSig b, rfl, rfl, nofun⟩
  | link => obtain ⟨b, rfl⟩ := inv_link rfl h; exact ⟨.link b, rfl, rfl, nofun⟩
  | treeLink => obtain ⟨b, rfl⟩ := inv_link rfl h; exact ⟨.treeLink b, rfl, rfl, nofun⟩
  | commitLink => obtain ⟨b, rfl⟩ := inv_link rfl h; exact ⟨.commitLink b, rfl, rfl, nofun⟩
  | linkList => obtain ⟨b, rfl⟩ := inv_linkList h; exact ⟨.linkList b, rfl, rfl, nofun⟩
  | stringList => obtain ⟨b, rfl⟩ := inv_stringList h; exact ⟨.stringList b, rfl, rfl, nofun⟩
  | tagList => obtain ⟨b, rfl⟩ := inv_tagList h; exact ⟨.tagList b, rfl, rfl, nofun⟩
  | person => obtain ⟨b, rfl⟩ := inv_person h; exact ⟨.person b, rfl, rfl, nofun⟩
  | treeEntry => obtain ⟨b, rfl⟩ := inv_entry h; exact ⟨.treeEntry b, rfl, rfl, nofun⟩
  | tree =>
    obtain ⟨es, rfl, hn, g⟩ := inv_map rfl h
    obtain ⟨l, rfl⟩ := data_map entryData es fun p hp => inv_entry (g p hp)
    refine ⟨.tree ⟨l, l⟩, rfl, rfl, ?_⟩
    rintro t ⟨⟩
    exact ⟨rfl, by simpa [List.map_map, Function.comp_def] using hn⟩
  | tag => obtain ⟨b, rfl⟩ := inv_tag h; exact ⟨.tag b, rfl, rfl, nofun⟩
  | commit => obtain ⟨b, rfl⟩ := inv_commit h; exact ⟨.commit b, rfl, rfl, nofun⟩

/-! ## The data determines the value -/

theorem map_inj {α β : Type} (f : α → β) (hf : ∀ a b, f a = f b → a = b) :
    ∀ l m : List α, l.map f = m.map f → l = m
  | [], [], _ => rfl
  | [], _ :: _, h => by cases h
  | _ :: _, [], h => by cases h
  | a :: l, b :: m, h => by
    simp only [List.map_cons, List.cons.injEq] at h
    rw [hf a b h.1, map_inj f hf l m h.2]

theorem personData_inj (p q : PersonInfo) (h : personData p = personData q) : p = q := by
  cases p; cases q
  simp [personData] at h
  simp [h]

theorem entryData_inj (p q : TreeEntry) (h : entryData p = entryData q) : p = q := by
  cases p; cases q
  simp [entryData] at h
  simp [h]

theorem tagData_inj (p q : Tag) (h : tagData p = tagData q) : p = q := by
  cases p; cases q
  simp [tagData] at h
  obtain ⟨h1, h2, h3, h4, h5⟩ := h
  rw [h1, h2, h3, personData_inj _ _ h4, h5]

theorem optData_inj {α : Type} (repr : Bool) (k : Bytes) (g : α → Data)
    (hg : ∀ a b, g a = g b → a = b) (hab : ∀ a, g a ≠ .absent) (o o' : Option α)
    (es es' : List (Bytes × Data)) (hk : ∀ p ∈ es, p.1 ≠ k) (hk' : ∀ p ∈ es', p.1 ≠ k)
    (h : optData repr k g o ++ es = optData repr k g o' ++ es') : o = o' ∧ es = es' := by
  cases o with
  | none =>
    cases o' with
    | none => exact ⟨rfl, List.append_cancel_left h⟩
    | some a =>
      cases repr
      · simp [optData] at h
        exact absurd h.1.symm (hab a)
      · simp only [optData, if_true, List.nil_append, List.cons_append] at h
        exact absurd rfl (hk (k, g a) (by simp [h]))
  | some a =>
    cases o' with
    | none =>
      cases repr
      · simp [optData] at h
        exact absurd h.1 (hab a)
      · simp only [optData, if_true, List.nil_append, List.cons_append] at h
        exact absurd rfl (hk' (k, g a) (by simp [← h]))
    | some b =>
      simp only [optData, List.cons_append, List.nil_append, List.cons.injEq, Prod.mk.injEq] at h
      exact ⟨by rw [hg a b h.1.2], h.2⟩

theorem optData_keys {α : Type} (repr : Bool) (k k' : Bytes) (g : α → Data) (o : Option α)
    (es : List (Bytes × Data)) (hne : k ≠ k') (h : ∀ p ∈ es, p.1 ≠ k') :
    ∀ p ∈ optData repr k g o ++ es, p.1 ≠ k' := by
  intro p hp
  rcases List.mem_append.1 hp with hp | hp
  · cases o with
    | none =>
      cases repr
      · simp [optData] at hp; subst hp; exact hne
      · simp [optData] at hp
    | some a => simp [optData] at hp; subst hp; exact hne
  · exact h p hp

theorem commitData_inj (repr : Bool) (c c' : Commit) (h : commitData repr c = commitData repr c') :
    c = c' := by
  have hp : ∀ a, personData a ≠ .absent := nofun
  have hstr : ∀ a b : Bytes, Data.str a = .str b → a = b := fun a b h => by cases h; rfl
  have hlink : ∀ a b : Link, Data.link a = .link b → a = b := fun a b h => by cases h; rfl
  have hb : ∀ a, Data.str a ≠ .absent := nofun
  have hend : ∀ (k : Bytes) (m : List Tag) (o : List Bytes), k ≠ b!"mergetag" → k ≠ b!"other" →
      ∀ p ∈ [(b!"mergetag", Data.list (m.map tagData)), (b!"other", .list (o.map .str))],
        p.1 ≠ k := by
    intro k m o h1 h2 p hp
    simp only [List.mem_cons, List.not_mem_nil, or_false] at hp
    rcases hp with rfl | rfl
    · exact fun e => h1 e.symm
    · exact fun e => h2 e.symm
  unfold commitData at h
  simp only [Data.map.injEq, List.cons.injEq, Prod.mk.injEq, true_and, Data.link.injEq,
    Data.list.injEq, Data.str.injEq] at h
  obtain ⟨h1, h2, h3, h⟩ := h
  obtain ⟨h4, h⟩ := optData_inj _ _ _ personData_inj hp _ _ _ _
    (optData_keys _ _ _ _ _ _ (by decide) (optData_keys _ _ _ _ _ _ (by decide)
      (optData_keys _ _ _ _ _ _ (by decide) (hend _ _ _ (by decide) (by decide)))))
    (optData_keys _ _ _ _ _ _ (by decide) (optData_keys _ _ _ _ _ _ (by decide)
      (optData_keys _ _ _ _ _ _ (by decide) (hend _ _ _ (by decide) (by decide))))) h
  obtain ⟨h5, h⟩ := optData_inj _ _ _ personData_inj hp _ _ _ _
    (optData_keys _ _ _ _ _ _ (by decide)
      (optData_keys _ _ _ _ _ _ (by decide) (hend _ _ _ (by decide) (by decide))))
    (optData_keys _ _ _ _ _ _ (by decide)
      (optData_keys _ _ _ _ _ _ (by decide) (hend _ _ _ (by decide) (by decide)))) h
  obtain ⟨h6, h⟩ := optData_inj _ _ _ hstr hb _ _ _ _
    (optData_keys _ _ _ _ _ _ (by decide) (hend _ _ _ (by decide) (by decide)))
    (optData_keys _ _ _ _ _ _ (by decide) (hend _ _ _ (by decide) (by decide))) h
  obtain ⟨h7, h⟩ := optData_inj _ _ _ hstr hb _ _ _ _
    (hend _ _ _ (by decide) (by decide)) (hend _ _ _ (by decide) (by decide)) h
  simp only [List.cons.injEq, Prod.mk.injEq, true_and, and_true, Data.list.injEq] at h
  have h2 := map_inj _ hlink _ _ h2
  have h8 := map_inj _ tagData_inj _ _ h.1
  have h9 := map_inj _ hstr _ _ h.2
  cases c; cases c'
  simp only [Commit.mk.injEq]
  exact ⟨h1, h2, h3, h4, h5, h6, h7, h8, h9⟩

/-- Two values of one type with the same data are the same. -/
theorem ownData_inj (repr : Bool) (v w : Own) (ht : tyOf v = tyOf w)
    (h : ownData repr v = ownData repr w) : SameValue v w := by
  have hstr : ∀ a b : Bytes, Data.str a = .str b → a = b := fun a b h => by cases h; rfl
  have hlink : ∀ a b : Link, Data.link a = .link b → a = b := fun a b h => by cases h; rfl
  cases v <;> cases w <;> first | cases ht | skip
  case blob.blob => simp [ownData] at h; simp [SameValue, h]
  case string.string => simp [ownData] at h; simp [SameValue, h]
  case gpgSig.gpgSig => simp [ownData] at h; simp [SameValue, h]
  case link.link => simp [ownData] at h; simp [SameValue, h]
  case treeLink.treeLink => simp [ownData] at h; simp [SameValue, h]
  case commitLink.commitLink => simp [ownData] at h; simp [SameValue, h]
  case linkList.linkList a b =>
    exact congrArg Own.linkList (map_inj _ hlink a b (by injection h))
  case stringList.stringList a b =>
    exact congrArg Own.stringList (map_inj _ hstr a b (by injection h))
  case tagList.tagList a b =>
    exact congrArg Own.tagList (map_inj _ tagData_inj a b (by injection h))
  case person.person a b => exact congrArg Own.person (personData_inj a b h)
  case treeEntry.treeEntry a b => exact congrArg Own.treeEntry (entryData_inj a b h)
  case tree.tree a b =>
    show a.t = b.t
    refine map_inj _ ?_ a.t b.t (by injection h)
    rintro ⟨k, e⟩ ⟨k', e'⟩ h
    simp only [Prod.mk.injEq] at h
    rw [h.1, entryData_inj _ _ h.2]
  case tag.tag a b => exact congrArg Own.tag (tagData_inj a b h)
  case commit.commit a b => exact congrArg Own.commit (commitData_inj repr a b h)

end Verif
