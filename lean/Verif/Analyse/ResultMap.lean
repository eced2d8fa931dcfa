import Verif.Names.Model
import Mathlib.Data.List.Nodup
import Mathlib.Data.List.Perm.Basic
import Mathlib.Data.List.Lex
import Mathlib.Data.Char

/-!
# The map of analysed targets, and what is handed over from analysis

Source: `src/buildtool/build_engine/target_map/result_map.hpp`, `configured_target.hpp`.
-/

namespace Verif.Analyse

open Verif.Path Verif.Names

/-! ## The model -/

/-- A configured target (configured_target.hpp:31-33). Values are represented by their identifiers, which is what is compared
(expression.hpp:195-198). -/
structure Target where
  target : Entity
  config : Str
  deriving DecidableEq

/-- entity_name_data.hpp:45-54, expression_ptr.cpp:52-54 (`AnonymousTarget::operator<`). -/
def anonLt (r n r' n' : Str) : Bool :=
  if r < r' then true else if r' < r then false else decide (n < n')

/-- entity_name_data.hpp:116, 152-167 (`EntityName::operator<`): the comparison of `std::variant`. -/
def entityLt : Entity → Entity → Bool
  | .named x, .named y => x.lt y
  | .named _, .anonymous _ _ => true
  | .anonymous _ _, .named _ => false
  | .anonymous r n, .anonymous r' n' => anonLt r n r' n'

/-- configured_target.hpp:52-61 (`ConfiguredTarget::operator<`). -/
def Target.lt (x y : Target) : Bool :=
  if entityLt x.target y.target = true then true
  else if entityLt y.target x.target = true then false
  else decide (x.config < y.config)

variable {R X : Type}

/-- The targets, in parts (result_map.hpp:469-471). -/
abbrev Parts (R : Type) := List (List (Target × R))

/-- `unordered_map::emplace`: nothing is changed if the key is there. -/
def emplace (q : Target) (r : R) (part : List (Target × R)) : List (Target × R) :=
  if q ∈ part.map Prod.fst then part else part ++ [(q, r)]

/-- result_map.hpp:80-105 (`Add`), for a map of the given width (result_map.hpp:482-489: always positive).
The numbers kept in `num_actions_` and the like only serve to reserve memory. What happens under the lock of the part is one step. -/
def add (hash : Entity → Nat) (width : Nat) (m : Parts R) (q : Target) (r : R) : Parts R :=
  m.modify (hash q.target % width) (emplace q r)

/-- The map after a sequence of additions, as the locks happened to order them. -/
def addAll (hash : Entity → Nat) (width : Nat) (h : List (Target × R)) : Parts R :=
  h.foldl (fun m x => add hash width m x.1 x.2) (List.replicate width [])

/-- Going through an unordered container, in any order. -/
def Enumerates (l : List X) (out : List X) : Prop := out.Perm l

/-- `std::sort` by the identifiers: any order of elements with the same identifier. -/
def SortsBy (ident : X → Str) (l out : List X) : Prop := out.Perm l ∧ out.Pairwise fun a b => ident a ≤ ident b

/-- `std::unique`, after an element that was kept. -/
def uniqueAfter (ident : X → Str) : X → List X → List X
  | x, [] => [x]
  | x, y :: l => if ident x = ident y then uniqueAfter ident x l else x :: uniqueAfter ident y l

/-- `std::unique` with `erase`, comparing identifiers. -/
def unique (ident : X → Str) : List X → List X
  | [] => []
  | x :: l => uniqueAfter ident x l

/-- What `ToResult` (result_map.hpp:263-349) makes of the actions, blobs, trees, or overlays: go through all parts,
collect, sort, remove duplicates. -/
def ToResult (items : R → List X) (ident : X → Str) (m : Parts R) (out : List X) : Prop :=
  ∃ es sorted, List.Forall₂ Enumerates m es ∧
    SortsBy ident (es.flatMap fun e => e.flatMap fun x => items x.2) sorted ∧ out = unique ident sorted

/-- The origins found in a target for an action or overlay (result_map.hpp:210-244), given the identifiers of its
actions and, behind them, its overlays: `pos` is the position to start from. -/
def originsFrom (i : Str) (q : Target) : Nat → List Str → List (Target × Nat)
  | _, [] => []
  | pos, j :: l => if j = i then (q, pos) :: originsFrom i q (pos + 1) l else originsFrom i q (pos + 1) l

/-- result_map.hpp:253-259: the order of origins. -/
def originLt (x y : Target × Nat) : Bool :=
  x.1.lt y.1 || (decide (x.1 = y.1) && decide (x.2 < y.2))

/-- The origins of one action or overlay (result_map.hpp:205-261): part by part, they are collected and sorted. -/
inductive Origins (subtasks : R → List Str) (i : Str) : Parts R → List (Target × Nat) → List (Target × Nat) → Prop where
  | nil (acc : List (Target × Nat)) : Origins subtasks i [] acc acc
  | cons {part e : List (Target × R)} {parts : Parts R} {acc sorted out : List (Target × Nat)} :
      Enumerates part e → sorted.Perm (acc ++ e.flatMap fun x => originsFrom i x.1 0 (subtasks x.2)) →
      sorted.Pairwise (fun a b => originLt b a = false) →
      Origins subtasks i parts sorted out → Origins subtasks i (part :: parts) acc out

/-- result_map.hpp:107-142 (`ConfiguredTargets`, `ExportTargets`): sorted by their text. -/
def SortedTargets (text : Target → Str) (m : List (List Target)) (out : List Target) : Prop :=
  ∃ es, List.Forall₂ Enumerates m es ∧ SortsBy text es.flatten out

/-! ## Orders -/

theorem named_lt_trichotomy (x y : Named) : x.lt y = true ∨ x = y ∨ y.lt x = true := by
  obtain ⟨r, m, n, f⟩ := x
  obtain ⟨r', m', n', f'⟩ := y
  unfold Named.lt
  by_cases h1 : r = r'
  · subst h1
    by_cases h2 : m = m'
    · subst h2
      by_cases h3 : n = n'
      · subst h3
        simp only [ne_eq, not_true_eq_false, if_false, decide_eq_true_eq]
        cases f <;> cases f' <;> simp [Ref.value]
      · have h3' : n' ≠ n := Ne.symm h3
        simp only [ne_eq, not_true_eq_false, if_false, h3, h3', not_false_eq_true, if_true, decide_eq_true_eq]
        rcases lt_trichotomy n n' with h | h | h
        · exact .inl h
        · exact absurd h h3
        · exact .inr (.inr h)
    · have h2' : m' ≠ m := Ne.symm h2
      simp only [ne_eq, not_true_eq_false, if_false, h2, h2', not_false_eq_true, if_true, decide_eq_true_eq]
      rcases lt_trichotomy m m' with h | h | h
      · exact .inl h
      · exact absurd h h2
      · exact .inr (.inr h)
  · have h1' : r' ≠ r := Ne.symm h1
    simp only [ne_eq, h1, h1', not_false_eq_true, if_true, decide_eq_true_eq]
    rcases lt_trichotomy r r' with h | h | h
    · exact .inl h
    · exact absurd h h1
    · exact .inr (.inr h)

theorem entity_lt_trichotomy (x y : Entity) : entityLt x y = true ∨ x = y ∨ entityLt y x = true := by
  cases x with
  | named x =>
    cases y with
    | named y =>
      rcases named_lt_trichotomy x y with h | h | h
      · exact .inl h
      · exact .inr (.inl (by rw [h]))
      · exact .inr (.inr h)
    | anonymous r n => exact .inl rfl
  | anonymous r n =>
    cases y with
    | named y => exact .inr (.inr rfl)
    | anonymous r' n' =>
      simp only [entityLt, anonLt]
      rcases lt_trichotomy r r' with h | h | h
      · exact .inl (if_pos h)
      · subst h
        simp only [lt_self_iff_false, if_false, decide_eq_true_eq]
        rcases lt_trichotomy n n' with h | h | h
        · exact .inl h
        · exact .inr (.inl (by rw [h]))
        · exact .inr (.inr h)
      · exact .inr (.inr (if_pos h))

theorem target_lt_trichotomy (x y : Target) : x.lt y = true ∨ x = y ∨ y.lt x = true := by
  obtain ⟨t, c⟩ := x
  obtain ⟨t', c'⟩ := y
  unfold Target.lt
  simp only
  rcases entity_lt_trichotomy t t' with h | h | h
  · exact .inl (if_pos h)
  · subst h
    by_cases h1 : entityLt t t = true
    · exact .inl (if_pos h1)
    · simp only [if_neg h1, decide_eq_true_eq]
      rcases lt_trichotomy c c' with h | h | h
      · exact .inl h
      · exact .inr (.inl (by rw [h]))
      · exact .inr (.inr h)
  · exact .inr (.inr (if_pos h))

/-- Origins that are not ordered are equal. -/
theorem origin_antisymm {x y : Target × Nat} (h1 : originLt y x = false) (h2 : originLt x y = false) : x = y := by
  obtain ⟨q, p⟩ := x
  obtain ⟨q', p'⟩ := y
  simp only [originLt, Bool.or_eq_false_iff, Bool.and_eq_false_iff, decide_eq_false_iff_not] at h1 h2
  rcases target_lt_trichotomy q q' with h | h | h
  · rw [h2.1] at h; cases h
  · subst h
    have h3 : ¬ p' < p := by rcases h1.2 with h | h; exact absurd rfl h; exact h
    have h4 : ¬ p < p' := by rcases h2.2 with h | h; exact absurd rfl h; exact h
    rw [show p = p' by omega]
  · rw [h1.1] at h; cases h

/-! ## The map after additions -/

theorem mem_emplace {q : Target} {r : R} {part : List (Target × R)} {x : Target × R} (h : x ∈ emplace q r part) :
    x ∈ part ∨ x = (q, r) := by
  unfold emplace at h
  split at h
  · exact .inl h
  · rcases List.mem_append.mp h with h | h
    · exact .inl h
    · exact .inr (List.mem_singleton.mp h)

theorem emplace_mono {q : Target} {r : R} {part : List (Target × R)} {x : Target × R} (h : x ∈ part) :
    x ∈ emplace q r part := by
  unfold emplace
  split
  · exact h
  · exact List.mem_append_left _ h

theorem emplace_key {q : Target} {r : R} {part : List (Target × R)} : q ∈ (emplace q r part).map Prod.fst := by
  unfold emplace
  split
  · assumption
  · simp

theorem emplace_nodup {q : Target} {r : R} {part : List (Target × R)} (h : (part.map Prod.fst).Nodup) :
    ((emplace q r part).map Prod.fst).Nodup := by
  unfold emplace
  split
  · exact h
  · rename_i hn
    rw [List.map_append]
    exact List.Nodup.append h (List.nodup_singleton _) (by simpa using hn)

/-- What is known about the map after additions. -/
structure Holds (hash : Entity → Nat) (width : Nat) (h : List (Target × R)) (m : Parts R) : Prop where
  length : m.length = width
  mem : ∀ (i : Nat) (part : List (Target × R)), m[i]? = some part → ∀ x ∈ part, x ∈ h ∧ hash x.1.target % width = i
  nodup : ∀ part ∈ m, (part.map Prod.fst).Nodup
  key : ∀ x ∈ h, ∃ part ∈ m, x.1 ∈ part.map Prod.fst

theorem holds_addAll (hash : Entity → Nat) {width : Nat} (hw : 0 < width) (h : List (Target × R)) :
    Holds hash width h (addAll hash width h) := by
  suffices gen : ∀ (h h0 : List (Target × R)) (m : Parts R), Holds hash width h0 m →
      Holds hash width (h0 ++ h) (h.foldl (fun m x => add hash width m x.1 x.2) m) by
    have := gen h [] (List.replicate width []) ?_
    · simpa [addAll] using this
    · refine ⟨by simp, ?_, ?_, ?_⟩
      · intro i part hp x hx
        rw [List.getElem?_replicate] at hp
        split at hp
        · cases hp; cases hx
        · cases hp
      · intro part hp
        rw [List.eq_of_mem_replicate hp]
        simp
      · intro x hx; cases hx
  intro h
  induction h with
  | nil => intro h0 m hm; simpa using hm
  | cons a h ih =>
    intro h0 m hm
    have : h0 ++ a :: h = (h0 ++ [a]) ++ h := by simp
    rw [this, List.foldl_cons]
    refine ih (h0 ++ [a]) _ ?_
    obtain ⟨q, r⟩ := a
    unfold add
    refine ⟨by simp [hm.length], ?_, ?_, ?_⟩
    · intro i part hp x hx
      rw [List.getElem?_modify] at hp
      cases hmi : m[i]? with
      | none => rw [hmi] at hp; cases hp
      | some part0 =>
        rw [hmi] at hp
        simp only [Option.map_eq_map, Option.map_some, Option.some.injEq] at hp
        by_cases hi : hash q.target % width = i
        · rw [if_pos hi] at hp
          subst hp
          rcases mem_emplace hx with hx | hx
          · have := hm.mem i part0 hmi x hx
            exact ⟨List.mem_append_left _ this.1, this.2⟩
          · subst hx
            exact ⟨List.mem_append_right _ (List.mem_singleton.mpr rfl), hi⟩
        · rw [if_neg hi] at hp
          have hp' : part0 = part := hp
          subst hp'
          have := hm.mem i part0 hmi x hx
          exact ⟨List.mem_append_left _ this.1, this.2⟩
    · intro part hp
      obtain ⟨i, hi⟩ := List.mem_iff_getElem?.mp hp
      rw [List.getElem?_modify] at hi
      cases hmi : m[i]? with
      | none => rw [hmi] at hi; cases hi
      | some part0 =>
        rw [hmi] at hi
        simp only [Option.map_eq_map, Option.map_some, Option.some.injEq] at hi
        have h0 := hm.nodup part0 (List.mem_iff_getElem?.mpr ⟨i, hmi⟩)
        by_cases hh : hash q.target % width = i
        · rw [if_pos hh] at hi; subst hi; exact emplace_nodup h0
        · rw [if_neg hh] at hi
          have hi' : part0 = part := hi
          subst hi'; exact h0
    · intro x hx
      have keep : ∀ part ∈ m, x.1 ∈ part.map Prod.fst →
          ∃ part ∈ m.modify (hash q.target % width) (emplace q r), x.1 ∈ part.map Prod.fst := by
        intro part hp hk
        obtain ⟨i, hi⟩ := List.mem_iff_getElem?.mp hp
        by_cases hh : hash q.target % width = i
        · refine ⟨emplace q r part, List.mem_iff_getElem?.mpr ⟨i, ?_⟩, ?_⟩
          · rw [List.getElem?_modify, hi]; simp [hh]
          · obtain ⟨y, hy, hyk⟩ := List.mem_map.mp hk
            exact List.mem_map.mpr ⟨y, emplace_mono hy, hyk⟩
        · refine ⟨part, List.mem_iff_getElem?.mpr ⟨i, ?_⟩, hk⟩
          rw [List.getElem?_modify, hi]; simp [hh]
      rcases List.mem_append.mp hx with hx | hx
      · obtain ⟨part, hp, hk⟩ := hm.key x hx
        exact keep part hp hk
      · have hx' := List.mem_singleton.mp hx
        subst hx'
        have hlt : hash q.target % width < m.length := by rw [hm.length]; exact Nat.mod_lt _ hw
        refine ⟨emplace q r m[hash q.target % width], List.mem_iff_getElem?.mpr ⟨hash q.target % width, ?_⟩, emplace_key⟩
        rw [List.getElem?_modify, List.getElem?_eq_getElem hlt]
        simp

/-- Each target that was added occurs exactly once in the whole map. -/
theorem flatten_nodup {hash : Entity → Nat} {width : Nat} {h : List (Target × R)} {m : Parts R}
    (hm : Holds hash width h m) : (m.flatten.map Prod.fst).Nodup := by
  rw [List.map_flatten, List.nodup_flatten]
  constructor
  · intro l hl
    obtain ⟨part, hp, rfl⟩ := List.mem_map.mp hl
    exact hm.nodup part hp
  · rw [List.pairwise_map, List.pairwise_iff_getElem]
    intro i j hi hj hij
    rw [List.disjoint_left]
    intro q h1 h2
    obtain ⟨x, hx, rfl⟩ := List.mem_map.mp h1
    obtain ⟨y, hy, hxy⟩ := List.mem_map.mp h2
    have e1 := (hm.mem i _ (List.getElem?_eq_getElem hi) x hx).2
    have e2 := (hm.mem j _ (List.getElem?_eq_getElem hj) y hy).2
    rw [hxy] at e2
    omega

theorem flatten_mem {hash : Entity → Nat} {width : Nat} {h : List (Target × R)} {m : Parts R}
    (hm : Holds hash width h m) {x : Target × R} (hx : x ∈ m.flatten) : x ∈ h := by
  obtain ⟨part, hp, hxp⟩ := List.mem_flatten.mp hx
  obtain ⟨i, hi⟩ := List.mem_iff_getElem?.mp hp
  exact (hm.mem i part hi x hxp).1

theorem flatten_key {hash : Entity → Nat} {width : Nat} {h : List (Target × R)} {m : Parts R}
    (hm : Holds hash width h m) {x : Target × R} (hx : x ∈ h) : ∃ y ∈ m.flatten, y.1 = x.1 := by
  obtain ⟨part, hp, hk⟩ := hm.key x hx
  obtain ⟨y, hy, hyk⟩ := List.mem_map.mp hk
  exact ⟨y, List.mem_flatten.mpr ⟨part, hp, hy⟩, hyk⟩

theorem enumerate_perm {m es : List (List X)} (h : List.Forall₂ Enumerates m es) : es.flatten.Perm m.flatten := by
  induction h with
  | nil => exact .refl _
  | cons h1 _ ih => rw [List.flatten_cons, List.flatten_cons]; exact h1.append ih

/-! ## Sorting and removing duplicates -/

theorem mem_uniqueAfter (ident : X → Str) : ∀ (l : List X) (x : X) (i : Str),
    i ∈ (uniqueAfter ident x l).map ident ↔ i = ident x ∨ i ∈ l.map ident := by
  intro l
  induction l with
  | nil => intro x i; simp [uniqueAfter]
  | cons y l ih =>
    intro x i
    unfold uniqueAfter
    split
    · rename_i he
      rw [ih, List.map_cons, List.mem_cons, he]
      constructor
      · rintro (h | h)
        · exact .inl h
        · exact .inr (.inr h)
      · rintro (h | h | h)
        · exact .inl h
        · exact .inl h
        · exact .inr h
    · rw [List.map_cons, List.mem_cons, ih, List.map_cons, List.mem_cons]

theorem uniqueAfter_sub (ident : X → Str) : ∀ (l : List X) (x y : X), y ∈ uniqueAfter ident x l → y = x ∨ y ∈ l := by
  intro l
  induction l with
  | nil => intro x y h; exact .inl (List.mem_singleton.mp h)
  | cons z l ih =>
    intro x y h
    unfold uniqueAfter at h
    split at h
    · rcases ih x y h with h | h
      · exact .inl h
      · exact .inr (List.mem_cons_of_mem _ h)
    · rcases List.mem_cons.mp h with h | h
      · exact .inl h
      · rcases ih z y h with h | h
        · exact .inr (by rw [h]; exact List.mem_cons_self)
        · exact .inr (List.mem_cons_of_mem _ h)

theorem mem_unique (ident : X → Str) (l : List X) (i : Str) : i ∈ (unique ident l).map ident ↔ i ∈ l.map ident := by
  cases l with
  | nil => exact Iff.rfl
  | cons x l => unfold unique; rw [mem_uniqueAfter, List.map_cons, List.mem_cons]

theorem unique_sub (ident : X → Str) {l : List X} {y : X} (h : y ∈ unique ident l) : y ∈ l := by
  cases l with
  | nil => exact h
  | cons x l =>
    rcases uniqueAfter_sub ident l x y h with h | h
    · rw [h]; exact List.mem_cons_self
    · exact List.mem_cons_of_mem _ h

theorem uniqueAfter_strict (ident : X → Str) : ∀ (l : List X) (x : X), (x :: l).Pairwise (fun a b => ident a ≤ ident b) →
    ((uniqueAfter ident x l).map ident).Pairwise (· < ·) := by
  intro l
  induction l with
  | nil => intro x _; simp [uniqueAfter]
  | cons y l ih =>
    intro x h
    have h1 := List.pairwise_cons.mp h
    have h2 := List.pairwise_cons.mp h1.2
    unfold uniqueAfter
    split
    · exact ih x (List.pairwise_cons.mpr ⟨fun b hb => h1.1 b (List.mem_cons_of_mem _ hb), h2.2⟩)
    · rename_i hne
      rw [List.map_cons, List.pairwise_cons]
      refine ⟨?_, ih y h1.2⟩
      intro i hi
      have hxy : ident x < ident y := lt_of_le_of_ne (h1.1 y List.mem_cons_self) hne
      rcases (mem_uniqueAfter ident l y i).mp hi with h | h
      · rw [h]; exact hxy
      · obtain ⟨b, hb, rfl⟩ := List.mem_map.mp h
        exact lt_of_lt_of_le hxy (h2.1 b hb)

theorem unique_strict (ident : X → Str) {l : List X} (h : l.Pairwise (fun a b => ident a ≤ ident b)) :
    ((unique ident l).map ident).Pairwise (· < ·) := by
  cases l with
  | nil => exact .nil
  | cons x l => exact uniqueAfter_strict ident l x h

/-- Strictly ascending lists with the same members are equal. -/
theorem strict_ext : ∀ {l l' : List Str}, l.Pairwise (· < ·) → l'.Pairwise (· < ·) → (∀ i, i ∈ l ↔ i ∈ l') → l = l' := by
  intro l
  induction l with
  | nil =>
    intro l' _ _ h
    cases l' with
    | nil => rfl
    | cons a l' => exact absurd ((h a).mpr List.mem_cons_self) (by simp)
  | cons a l ih =>
    intro l' h1 h2 h
    cases l' with
    | nil => exact absurd ((h a).mp List.mem_cons_self) (by simp)
    | cons b l' =>
      have p1 := List.pairwise_cons.mp h1
      have p2 := List.pairwise_cons.mp h2
      have hab : a = b := by
        rcases List.mem_cons.mp ((h a).mp List.mem_cons_self) with h3 | h3
        · exact h3
        · rcases List.mem_cons.mp ((h b).mpr List.mem_cons_self) with h4 | h4
          · exact h4.symm
          · exact absurd (lt_trans (p2.1 a h3) (p1.1 b h4)) (lt_irrefl _)
      subst hab
      congr 1
      refine ih p1.2 p2.2 ?_
      intro i
      have := h i
      rw [List.mem_cons, List.mem_cons] at this
      constructor
      · intro hi
        rcases this.mp (.inr hi) with h3 | h3
        · subst h3; exact absurd (p1.1 i hi) (lt_irrefl _)
        · exact h3
      · intro hi
        rcases this.mpr (.inr hi) with h3 | h3
        · subst h3; exact absurd (p2.1 i hi) (lt_irrefl _)
        · exact h3

/-- Lists with the same identifiers, where identifiers determine the items. -/
theorem map_ident_inj {ident : X → Str} : ∀ {l l' : List X}, l.map ident = l'.map ident →
    (∀ a ∈ l, ∀ b ∈ l', ident a = ident b → a = b) → l = l' := by
  intro l
  induction l with
  | nil => intro l' h _; exact (List.map_eq_nil_iff.mp h.symm).symm
  | cons a l ih =>
    intro l' h hinj
    cases l' with
    | nil => cases h
    | cons b l' =>
      have h' : ident a = ident b ∧ l.map ident = l'.map ident := by simpa using h
      rw [hinj a List.mem_cons_self b List.mem_cons_self h'.1,
        ih h'.2 fun x hx y hy => hinj x (List.mem_cons_of_mem _ hx) y (List.mem_cons_of_mem _ hy)]

/-- Sorted permutations are unique, if things that are not ordered are equal. -/
theorem sorted_unique {lt : X → X → Bool} (anti : ∀ x y, lt y x = false → lt x y = false → x = y) :
    ∀ {l l' : List X}, l.Perm l' → l.Pairwise (fun a b => lt b a = false) →
      l'.Pairwise (fun a b => lt b a = false) → l = l' := by
  intro l
  induction l with
  | nil => intro l' h _ _; exact (List.Perm.nil_eq h)
  | cons a l ih =>
    intro l' h h1 h2
    cases l' with
    | nil => exact absurd h.symm (List.not_perm_nil_cons a l)
    | cons b l' =>
      have p1 := List.pairwise_cons.mp h1
      have p2 := List.pairwise_cons.mp h2
      have hab : a = b := by
        rcases List.mem_cons.mp (h.subset (List.mem_cons_self (a := a))) with h3 | h3
        · exact h3
        · rcases List.mem_cons.mp (h.symm.subset (List.mem_cons_self (a := b))) with h4 | h4
          · exact h4.symm
          · exact anti a b (p1.1 b h4) (p2.1 a h3)
      subst hab
      rw [ih (List.Perm.cons_inv h) p1.2 p2.2]

end Verif.Analyse
