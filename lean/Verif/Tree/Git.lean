import Verif.Tree.Spec
import Mathlib.Data.Char
import Mathlib.Data.List.Lex
import Mathlib.Data.List.Nodup
import Mathlib.Data.List.Perm.Basic

/-!
# Git trees: C32, C33
-/

namespace Verif.Tree

open Verif.Dig (ObjectType)

/-! ## Grouping -/

theorem flat_addTo (id : Str) (nt : Str × ObjectType) : ∀ g : Groups,
    (flat (addTo id nt g)).Perm (flat g ++ [⟨nt.1, nt.2, id⟩])
  | [] => by simp [addTo, flat]
  | (i, l) :: t => by
    unfold addTo
    split
    · rename_i hi
      subst hi
      simp only [flat, List.flatMap_cons, List.map_append, List.map_cons, List.map_nil, List.append_assoc]
      exact List.Perm.append_left _ List.perm_append_comm
    · have := flat_addTo id nt t
      simp only [flat, List.flatMap_cons, List.append_assoc] at this ⊢
      exact List.Perm.append_left _ this

theorem flat_group_aux : ∀ (l : List Ent) (g : Groups),
    (flat (l.foldl (fun g e => addTo e.id (e.name, e.type) g) g)).Perm (flat g ++ l)
  | [], g => by simp
  | e :: l, g => by
    have h1 := flat_group_aux l (addTo e.id (e.name, e.type) g)
    have h2 := flat_addTo e.id (e.name, e.type) g
    refine h1.trans ((h2.append_right l).trans ?_)
    simp

theorem flat_group (l : List Ent) : (flat (group l)).Perm l := flat_group_aux l []

/-! ## Sorting -/

/-- Insert an entry into the sorted map. -/
def ins (m : List (Str × (Str × ObjectType))) (e : Ent) : List (Str × (Str × ObjectType)) :=
  OMap.insertList (fun old _ => old) (gitKey e.name e.type) (e.id, e.type) m

theorem sortGroup_eq (id : Str) : ∀ (l : List (Str × ObjectType)) (m : List (Str × (Str × ObjectType))),
    sortGroup id l m = (l.map fun nt => (⟨nt.1, nt.2, id⟩ : Ent)).foldl ins m
  | [], _ => rfl
  | (n, ty) :: t, m => by
    unfold sortGroup
    rw [sortGroup_eq id t]
    rfl

theorem sorted_eq : ∀ (g : Groups) (m : List (Str × (Str × ObjectType))), sorted g m = (flat g).foldl ins m
  | [], _ => rfl
  | (id, l) :: t, m => by
    unfold sorted
    rw [sorted_eq t, sortGroup_eq]
    simp only [flat, List.flatMap_cons, List.foldl_append]

theorem gitKey_eq (e : Ent) : gitKey e.name e.type = gitName e := by
  unfold gitKey gitName
  cases e.type <;> simp [ObjectType.isTree]

theorem foldl_ins : ∀ (l : List Ent) (m : List (Str × (Str × ObjectType))), Ascending m →
    ((l.map gitName).Nodup) → (∀ e ∈ l, assoc (gitName e) m = none) →
    Ascending (l.foldl ins m) ∧ ∀ x, assoc x (l.foldl ins m) = (assoc x m).or
      ((l.find? fun e => gitName e = x).map fun e => (e.id, e.type))
  | [], m, hm, _, _ => ⟨hm, fun x => by simp⟩
  | e :: l, m, hm, hn, hd => by
    simp only [List.map_cons, List.nodup_cons] at hn
    have hm' : Ascending (ins m e) := OMap.insertList_asc _ _ _ _ hm
    have ha : ∀ x, assoc x (ins m e) = if x = gitName e then some (e.id, e.type) else assoc x m := by
      intro x
      unfold ins
      rw [assoc_insertList _ _ _ _ hm, gitKey_eq, hd e (by simp)]
      split <;> rfl
    obtain ⟨h1, h2⟩ := foldl_ins l (ins m e) hm' hn.2 (fun e' he' => by
      rw [ha, if_neg (fun h => hn.1 (by rw [← h]; exact List.mem_map_of_mem he'))]
      exact hd e' (by simp [he']))
    refine ⟨h1, fun x => ?_⟩
    rw [List.foldl_cons, h2, ha]
    by_cases hx : x = gitName e
    · subst hx
      simp [hd e (by simp)]
    · rw [if_neg hx, List.find?_cons]
      have : decide (gitName e = x) = false := by simp [Ne.symm hx]
      rw [this]

/-- Entry of the sorted map. -/
def item (e : Ent) : Str × (Str × ObjectType) := (gitName e, (e.id, e.type))

theorem gitName_name {e e' : Ent} (h : e.OK) (h' : e'.OK) (he : gitName e = gitName e') : e.name = e'.name := by
  unfold gitName at he
  split at he <;> split at he
  · exact List.append_cancel_right he
  · exact absurd (by rw [← he]; simp) h'.noSlash
  · exact absurd (by rw [he]; simp) h.noSlash
  · exact he

theorem Listing.gitNames {l : List Ent} (h : Listing l) : (l.map gitName).Nodup := by
  have hn := h.names
  rw [List.Nodup, List.pairwise_map] at hn ⊢
  exact hn.imp_of_mem (fun ha hb hne he => hne (gitName_name (h.ok _ ha) (h.ok _ hb) he))

theorem Listing.perm {l l' : List Ent} (h : Listing l) (hp : l.Perm l') : Listing l' :=
  ⟨fun e he => h.ok e (hp.mem_iff.mpr he), (hp.map Ent.name).nodup_iff.mp h.names⟩

theorem find_gitName {l : List Ent} (hn : (l.map gitName).Nodup) {e : Ent} (he : e ∈ l) :
    l.find? (fun e' => gitName e' = gitName e) = some e := by
  induction l with
  | nil => cases he
  | cons a l ih =>
    simp only [List.map_cons, List.nodup_cons] at hn
    rw [List.find?_cons]
    rcases List.mem_cons.mp he with rfl | he
    · simp
    · have : gitName a ≠ gitName e := fun h => hn.1 (by rw [h]; exact List.mem_map_of_mem he)
      simp only [this, decide_false]
      exact ih hn.2 he

/-- The sorted map has exactly the entries, in ascending order. -/
theorem sorted_spec {g : Groups} (h : Listing (flat g)) : ∃ l : List Ent, l.Perm (flat g) ∧
    l.Pairwise (fun a b => gitName a < gitName b) ∧ sorted g [] = l.map item := by
  obtain ⟨h1, h2⟩ := foldl_ins (flat g) [] List.Pairwise.nil h.gitNames (fun _ _ => rfl)
  rw [← sorted_eq] at h1 h2
  have hs : ((flat g).mergeSort (fun a b => gitName a ≤ gitName b)).Perm (flat g) := List.mergeSort_perm _ _
  generalize hl : (flat g).mergeSort (fun a b => gitName a ≤ gitName b) = l at hs
  have hle : l.Pairwise (fun a b => gitName a ≤ gitName b) := by
    have := List.pairwise_mergeSort (le := fun a b : Ent => decide (gitName a ≤ gitName b))
      (fun a b c hab hbc => by simp only [decide_eq_true_eq] at *; exact le_trans hab hbc)
      (fun a b => by simp only [Bool.or_eq_true, decide_eq_true_eq]; exact le_total _ _) (flat g)
    rw [hl] at this
    exact this.imp (fun h => by simpa using h)
  have hnd : (l.map gitName).Nodup := (hs.map gitName).nodup_iff.mpr h.gitNames
  have hlt : l.Pairwise (fun a b => gitName a < gitName b) := by
    rw [List.Nodup, List.pairwise_map] at hnd
    exact (hle.and hnd).imp (fun h => lt_of_le_of_ne h.1 h.2)
  have hasc : Ascending (l.map item) := by
    unfold Ascending
    rw [List.pairwise_map]
    exact hlt
  refine ⟨l, hs, hlt, ascending_ext h1 hasc (fun x => ?_)⟩
  rw [h2]
  simp only [assoc, Option.none_or]
  cases hf : (flat g).find? (fun e => gitName e = x) with
  | none =>
    symm
    rw [Option.map_none, assoc_eq_none_iff]
    intro p hp
    obtain ⟨e, he, hi⟩ := List.mem_map.mp hp
    have hx : gitName e = x := congrArg Prod.fst hi
    have := List.find?_eq_none.mp hf e (hs.mem_iff.mp he)
    simp only [decide_eq_true_eq] at this
    exact this hx
  | some e =>
    symm
    have hm := List.mem_of_find?_eq_some hf
    have hx := List.find?_some hf
    simp only [decide_eq_true_eq] at hx
    subst hx
    exact (assoc_eq_some_iff hasc).mpr (List.mem_map.mpr ⟨e, hs.mem_iff.mpr hm, rfl⟩)

theorem entryText_item (e : Ent) : entryText (item e).1 (item e).2.1 (item e).2.2 = gitText e := by
  obtain ⟨n, ty, id⟩ := e
  unfold entryText gitText item gitName
  cases ty <;> simp [ObjectType.isTree, gitMode, Tree.perm]

/-- What is written: the texts of the entries in git's order. -/
theorem createTree_spec {g : Groups} (h : Listing (flat g)) : ∃ l : List Ent, l.Perm (flat g) ∧
    l.Pairwise (fun a b => gitName a < gitName b) ∧ createTree g = l.flatMap gitText := by
  obtain ⟨l, h1, h2, h3⟩ := sorted_spec h
  refine ⟨l, h1, h2, ?_⟩
  unfold createTree
  rw [h3, List.flatMap_map]
  simp only [entryText_item]

/-! ## Parsing -/

/-- The mode as number. -/
def modeOf : ObjectType → Nat
  | .file => 33188
  | .executable => 33261
  | .tree => 16384
  | .symlink => 40960

theorem octal_mode (ty : ObjectType) (r : Str) :
    octal 0 ((gitMode ty).toList ++ ' ' :: r) = (modeOf ty, ' ' :: r) := by
  cases ty <;> rfl

theorem modeType_modeOf (ty : ObjectType) : modeType (modeOf ty) = some ty := by
  cases ty <;> rfl

theorem cutZero_append : ∀ (s r : Str), (∀ c ∈ s, c.toNat ≠ 0) →
    cutZero (s ++ Char.ofNat 0 :: r) = some (s, r)
  | [], r, _ => rfl
  | c :: s, r, h => by
    rw [List.cons_append, cutZero, if_neg (h c (by simp)), cutZero_append s r (fun x hx => h x (by simp [hx]))]
    rfl

theorem parseEntry_text (e : Ent) (h : e.OK) (r : Str) :
    parseEntry (gitText e ++ r) = some ((modeOf e.type, e.name, e.id), r) := by
  have hs : gitText e ++ r = (gitMode e.type).toList ++ ' ' :: (e.name ++ Char.ofNat 0 :: (e.id ++ r)) := by
    unfold gitText
    simp
  have ho := octal_mode e.type (e.name ++ Char.ofNat 0 :: (e.id ++ r))
  unfold parseEntry
  rw [hs, ho]
  have hlen : ¬ ((' ' :: (e.name ++ Char.ofNat 0 :: (e.id ++ r))).length =
      ((gitMode e.type).toList ++ ' ' :: (e.name ++ Char.ofNat 0 :: (e.id ++ r))).length ∨
      65535 < modeOf e.type) := by
    rw [List.length_append]
    have : 0 < (gitMode e.type).toList.length ∧ modeOf e.type ≤ 65535 := by
      cases e.type <;> decide
    omega
  simp only [if_neg hlen]
  rw [cutZero_append _ _ h.noZero]
  have h1 : e.name.length ≠ 0 := fun h0 => h.nonempty (List.length_eq_zero_iff.mp h0)
  have h2 := h.short
  have h3 := h.id
  have hc : ¬ (e.name.length = 0 ∨ 65535 < e.name.length ∨ (e.id ++ r).length < 20) := by
    rw [List.length_append]
    omega
  simp only [Option.bind_some, if_neg hc]
  rw [← h3, List.take_left, List.drop_left]

theorem gitText_ne (e : Ent) (r : Str) : ∃ c t, gitText e ++ r = c :: t := by
  cases h : gitText e ++ r with
  | cons c t => exact ⟨c, t, rfl⟩
  | nil =>
    unfold gitText at h
    simp at h

theorem parseUpTo_texts : ∀ (l : List Ent) (n : Nat), l.length ≤ n → (∀ e ∈ l, e.OK) →
    parseUpTo n (l.flatMap gitText) = some l
  | [], n, _, _ => by cases n <;> rfl
  | e :: l, 0, h, _ => by simp at h
  | e :: l, n + 1, h, ho => by
    rw [List.flatMap_cons]
    obtain ⟨c, t, hc⟩ := gitText_ne e (l.flatMap gitText)
    rw [hc]
    unfold parseUpTo
    rw [← hc, parseEntry_text e (ho e (by simp))]
    simp only [Option.bind_some, modeType_modeOf]
    rw [parseUpTo_texts l n (by simpa using h) (fun e' h' => ho e' (by simp [h']))]
    rfl

theorem texts_length : ∀ l : List Ent, l.length ≤ (l.flatMap gitText).length
  | [] => Nat.zero_le _
  | e :: l => by
    have := texts_length l
    rw [List.flatMap_cons, List.length_append, List.length_cons]
    obtain ⟨c, t, hc⟩ := gitText_ne e []
    have : 0 < (gitText e).length := by
      rw [List.append_nil] at hc
      rw [hc]
      simp
    omega

theorem parseTree_texts {l : List Ent} (h : ∀ e ∈ l, e.OK) : parseTree (l.flatMap gitText) = some l :=
  parseUpTo_texts l _ (texts_length l) h

/-- C32: what is written for a directory listing is the concatenation of the texts of its entries in git's
order; and it is read back as exactly these entries. -/
theorem C32_round_trip (g : Groups) (h : Listing (flat g)) : ∃ l : List Ent, l.Perm (flat g) ∧
    l.Pairwise (fun a b => gitName a < gitName b) ∧ createTree g = l.flatMap gitText ∧
    parseTree (createTree g) = some l ∧
    ∃ g', readTreeData (createTree g) = some g' ∧ (flat g').Perm (flat g) := by
  obtain ⟨l, h1, h2, h3⟩ := createTree_spec h
  have h4 : parseTree (createTree g) = some l := by
    rw [h3]
    exact parseTree_texts (h.perm h1.symm).ok
  refine ⟨l, h1, h2, h3, h4, group l, ?_, (flat_group l).trans h1⟩
  unfold readTreeData
  rw [h4]
  rfl

/-- C32: the order in which entries are supplied, and their grouping, does not matter. -/
theorem C32_order (g g' : Groups) (h : Listing (flat g)) (hp : (flat g).Perm (flat g')) :
    createTree g = createTree g' := by
  obtain ⟨l, h1, h2, h3⟩ := createTree_spec h
  obtain ⟨l', h1', h2', h3'⟩ := createTree_spec (h.perm hp)
  have hll : l.Perm l' := h1.trans (hp.trans h1'.symm)
  have : l = l' := hll.eq_of_pairwise
    (fun a b _ _ hab hba => absurd (lt_trans hab hba) (lt_irrefl _)) h2 h2'
  rw [h3, h3', this]

/-- C32: different directory listings have different trees. -/
theorem C32_injective (g g' : Groups) (h : Listing (flat g)) (h' : Listing (flat g'))
    (e : createTree g = createTree g') : (flat g).Perm (flat g') := by
  obtain ⟨l, h1, _, _, h2, _⟩ := C32_round_trip g h
  obtain ⟨l', h1', _, _, h2', _⟩ := C32_round_trip g' h'
  rw [e, h2'] at h2
  injection h2 with h2
  subst h2
  exact h1.symm.trans h1'

/-! ## Reading trees for overlays -/

theorem get_append (n : Str) : ∀ l l' : Entries, get n (l ++ l') = (get n l).or (get n l')
  | [], l' => by simp [get]
  | (m, i) :: t, l' => by
    rw [List.cons_append, get, get]
    split
    · rfl
    · exact get_append n t l'

theorem get_none {n : Str} : ∀ {l : Entries}, get n l = none ↔ ∀ p ∈ l, p.1 ≠ n
  | [] => by simp [get]
  | (m, i) :: t => by
    rw [get]
    split
    · rename_i h
      simp [h]
    · rename_i h
      rw [get_none]
      simp [h]

theorem get_mem {n : Str} {i : Info} : ∀ {l : Entries}, get n l = some i → (n, i) ∈ l
  | [], h => by simp [get] at h
  | (m, j) :: t, h => by
    rw [get] at h
    split at h
    · rename_i hm
      injection h with h
      subst h hm
      exact List.mem_cons_self
    · exact List.mem_cons_of_mem _ (get_mem h)

theorem get_of_mem {n : Str} {i : Info} : ∀ {l : Entries}, (l.map Prod.fst).Nodup → (n, i) ∈ l →
    get n l = some i
  | [], _, h => by cases h
  | (m, j) :: t, hn, h => by
    simp only [List.map_cons, List.nodup_cons] at hn
    rw [get]
    rcases List.mem_cons.mp h with h | h
    · injection h with h1 h2
      subst h1 h2
      rw [if_pos rfl]
    · rw [if_neg (fun hm => hn.1 (by rw [hm]; exact List.mem_map_of_mem (f := Prod.fst) h))]
      exact get_of_mem hn.2 h

theorem get_iff {n : Str} {i : Info} {l : Entries} (hn : (l.map Prod.fst).Nodup) :
    get n l = some i ↔ (n, i) ∈ l := ⟨get_mem, get_of_mem hn⟩

theorem get_perm {l l' : Entries} (hn : (l.map Prod.fst).Nodup) (hp : l.Perm l') (n : Str) :
    get n l = get n l' := by
  have hn' : (l'.map Prod.fst).Nodup := (hp.map _).nodup_iff.mp hn
  cases h : get n l with
  | some i => exact ((get_iff hn').mpr (hp.mem_iff.mp (get_mem h))).symm
  | none =>
    cases h' : get n l' with
    | none => rfl
    | some i =>
      rw [(get_iff hn).mpr (hp.mem_iff.mpr (get_mem h'))] at h
      exact nomatch h

/-- An entry as pair of name and info. -/
def Ent.pair (e : Ent) : Str × Info := (e.name, ⟨e.type, e.id⟩)

theorem insertNew_eq {n : Str} {i : Info} {l : Entries} (h : n ∉ l.map Prod.fst) :
    insertNew n i l = l ++ [(n, i)] := by
  unfold insertNew
  have : get n l = none := get_none.mpr (fun p hp hpn => h (by
    rw [← hpn]
    exact List.mem_map_of_mem hp))
  rw [this]

theorem addGroup_eq (id : Str) (ty : ObjectType) : ∀ (t : List (Str × ObjectType)) (l : Entries),
    (∀ nt ∈ t, nt.2 = ty) → (l.map Prod.fst ++ t.map Prod.fst).Nodup →
    addGroup id ty t l = l ++ (t.map fun nt => (nt.1, (⟨nt.2, id⟩ : Info)))
  | [], l, _, _ => by simp [addGroup]
  | (n, ty') :: t, l, hu, hn => by
    have hty : ty' = ty := hu (n, ty') (by simp)
    subst hty
    unfold addGroup
    have hnot : n ∉ l.map Prod.fst := fun h => by
      have := List.disjoint_of_nodup_append hn h
      exact this (by simp)
    rw [insertNew_eq hnot, addGroup_eq id ty' t _ (fun nt h => hu nt (by simp [h])) (by
      simpa using hn)]
    simp

theorem addGroups_eq : ∀ (g : Groups) (l : Entries),
    (∀ p ∈ g, ∀ nt ∈ p.2, ∀ nt' ∈ p.2, nt.2 = nt'.2) →
    (l.map Prod.fst ++ (flat g).map Ent.name).Nodup → addGroups g l = l ++ (flat g).map Ent.pair
  | [], l, _, _ => by simp [addGroups, flat]
  | (id, []) :: t, l, hu, hn => by
    unfold addGroups
    rw [addGroups_eq t l (fun p hp => hu p (by simp [hp])) (by simpa [flat] using hn)]
    simp [flat]
  | (id, (n, ty) :: g) :: t, l, hu, hn => by
    unfold addGroups
    have hn0 : (l.map Prod.fst ++ (((n, ty) :: g).map Prod.fst ++ (flat t).map Ent.name)).Nodup := by
      simpa [flat, Function.comp_def] using hn
    have hn1 : (l.map Prod.fst ++ ((n, ty) :: g).map Prod.fst).Nodup := by
      rw [← List.append_assoc] at hn0
      exact (List.nodup_append.mp hn0).1
    rw [addGroup_eq id ty _ l
      (fun nt h => hu (id, (n, ty) :: g) (by simp) nt h (n, ty) (by simp)) hn1]
    rw [addGroups_eq t _ (fun p hp => hu p (by simp [hp])) (by
      simpa [Function.comp_def] using hn0)]
    simp [flat, Ent.pair, Function.comp_def]

theorem uniform_group {l : List Ent} (hu : Uniform l) :
    ∀ p ∈ group l, ∀ nt ∈ p.2, ∀ nt' ∈ p.2, nt.2 = nt'.2 := by
  intro p hp nt hnt nt' hnt'
  have hm : ∀ x ∈ p.2, (⟨x.1, x.2, p.1⟩ : Ent) ∈ l := fun x hx =>
    (flat_group l).mem_iff.mp (List.mem_flatMap.mpr ⟨p, hp, List.mem_map.mpr ⟨x, hx, rfl⟩⟩)
  exact hu _ (hm nt hnt) _ (hm nt' hnt') rfl

theorem parseGitTree_eq {s : Str} {l : List Ent} (hp : parseTree s = some l) (hn : (l.map Ent.name).Nodup)
    (hu : Uniform l) : parseGitTree s = some ((flat (group l)).map Ent.pair) := by
  unfold parseGitTree readTreeData
  rw [hp]
  simp only [Option.bind_some]
  rw [addGroups_eq (group l) [] (uniform_group hu)
    (by simpa using ((flat_group l).map Ent.name).nodup_iff.mpr hn)]
  rfl

/-- C33 in part: if in a tree entries that are the same object have the same type, then reading the tree for
overlays gives exactly its entries.  Missing: trees where the same object occurs with different types, see
`C33_violation`. -/
theorem C33_types_partial (s : Str) (l : List Ent) (hp : parseTree s = some l)
    (hn : (l.map Ent.name).Nodup) (hu : Uniform l) :
    ∃ es, parseGitTree s = some es ∧
      ∀ n i, get n es = some i ↔ ∃ e ∈ l, e.name = n ∧ e.type = i.type ∧ e.id = i.id := by
  refine ⟨_, parseGitTree_eq hp hn hu, fun n i => ?_⟩
  have hpm := (flat_group l).map Ent.pair
  have hnd : (((flat (group l)).map Ent.pair).map Prod.fst).Nodup := by
    rw [List.map_map]
    exact ((flat_group l).map Ent.name).nodup_iff.mpr hn
  rw [get_iff hnd, hpm.mem_iff, List.mem_map]
  constructor
  · rintro ⟨e, he, h⟩
    injection h with h1 h2
    subst h2
    exact ⟨e, he, h1, rfl, rfl⟩
  · rintro ⟨e, he, h1, h2, h3⟩
    refine ⟨e, he, ?_⟩
    unfold Ent.pair
    rw [h1, h2, h3]

/-- The object used in the examples. -/
def someId : Str := List.replicate 20 'i'

/-- C33 does not hold: an executable with the same content as a file before it is read as a file. -/
theorem C33_violation : ∃ s : Str,
    parseTree s = some [⟨['a'], .file, someId⟩, ⟨['b'], .executable, someId⟩] ∧
    parseGitTree s = some [(['a'], ⟨.file, someId⟩), (['b'], ⟨.file, someId⟩)] :=
  ⟨gitText ⟨['a'], .file, someId⟩ ++ gitText ⟨['b'], .executable, someId⟩, by decide +kernel, by decide +kernel⟩

/-- For examples: a directory with a sub-directory that sorts after a file with a longer name. -/
def exampleListing : Groups :=
  [(List.replicate 20 'x', [("lib".toList, .tree)]), (someId, [("lib.c".toList, .file), ("a".toList, .symlink)])]

theorem exampleListing_ok : Listing (flat exampleListing) where
  ok := fun e he => by
    simp only [exampleListing, flat, List.flatMap_cons, List.flatMap_nil, List.map_cons, List.map_nil,
      List.append_nil, List.mem_append, List.mem_cons, List.not_mem_nil, or_false] at he
    rcases he with rfl | rfl | rfl <;> exact ⟨by decide, by decide, by decide, by decide, by decide⟩
  names := by decide

example : parseTree (createTree exampleListing) = some [⟨"a".toList, .symlink, someId⟩,
    ⟨"lib.c".toList, .file, someId⟩, ⟨"lib".toList, .tree, List.replicate 20 'x'⟩] := by
  obtain ⟨l, _, _, _, h, _⟩ := C32_round_trip exampleListing exampleListing_ok
  decide +kernel

example : createTree exampleListing = createTree exampleListing.reverse :=
  C32_order _ _ exampleListing_ok (by decide +kernel)

example : ∃ es, parseGitTree (createTree [(someId, [("lib.c".toList, .file), ("a".toList, .file)])]) = some es ∧
    get "a".toList es = some ⟨.file, someId⟩ := by
  obtain ⟨es, h1, h2⟩ := C33_types_partial
    (createTree [(someId, [("lib.c".toList, .file), ("a".toList, .file)])])
    [⟨"a".toList, .file, someId⟩, ⟨"lib.c".toList, .file, someId⟩] (by decide +kernel) (by decide)
    (by unfold Uniform; decide)
  exact ⟨es, h1, (h2 _ _).mpr ⟨⟨"a".toList, .file, someId⟩, by simp, rfl, rfl, rfl⟩⟩

end Verif.Tree
