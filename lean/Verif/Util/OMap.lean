import Mathlib.Data.List.Lex
import Mathlib.Data.Char
import Mathlib.Order.Basic

/-!
# Ordered finite maps

`OMap K V` is the model of `std::map<K, V>` used throughout: the in-order
traversal of the container, i.e. a list of pairs with strictly ascending keys.
`std::map` itself is part of the trusted base; the operations below transcribe
the contracts of `find`, `emplace` and `operator[]`/`insert_or_assign`.
-/

namespace Verif

/-- A C++ `std::string`; every `Char` stands for one byte.  The order on
`List Char` is the bytewise lexicographic one, as `std::string::operator<`. -/
abbrev Str := List Char

section
variable {K V : Type} [LinearOrder K]

/-- First binding of `k` in an association list. -/
def assoc (k : K) : List (K × V) → Option V
  | [] => none
  | (k', v) :: t => if k = k' then some v else assoc k t

/-- Keys strictly ascending. -/
def Ascending (l : List (K × V)) : Prop := l.Pairwise (fun a b => a.1 < b.1)

/-- Model of `std::map<K, V>` (in-order traversal). -/
structure OMap (K V : Type) [LinearOrder K] where
  items : List (K × V)
  asc : Ascending items

namespace OMap

/-- `std::map::find`. -/
def find (m : OMap K V) (k : K) : Option V := assoc k m.items

/-- `std::map{}`. -/
def empty : OMap K V := ⟨[], List.Pairwise.nil⟩

instance : Inhabited (OMap K V) := ⟨empty⟩

/-- Insertion into an ascending association list; `f` combines an old value with the
new one on a key clash. -/
def insertList (f : V → V → V) (k : K) (v : V) : List (K × V) → List (K × V)
  | [] => [(k, v)]
  | (k', v') :: t =>
    if k < k' then (k, v) :: (k', v') :: t
    else if k = k' then (k', f v' v) :: t
    else (k', v') :: insertList f k v t

theorem insertList_keys (f : V → V → V) (k : K) (v : V) (l : List (K × V)) :
    ∀ p ∈ insertList f k v l, p.1 = k ∨ ∃ q ∈ l, q.1 = p.1 := by
  induction l with
  | nil => simp [insertList]
  | cons a t ih =>
    obtain ⟨k', v'⟩ := a
    intro p hp
    unfold insertList at hp
    split at hp
    · simp only [List.mem_cons] at hp
      rcases hp with rfl | rfl | h
      · exact Or.inl rfl
      · exact Or.inr ⟨_, List.mem_cons_self, rfl⟩
      · exact Or.inr ⟨p, List.mem_cons_of_mem _ h, rfl⟩
    · split at hp
      · simp only [List.mem_cons] at hp
        rcases hp with rfl | h
        · exact Or.inr ⟨(k', v'), List.mem_cons_self, rfl⟩
        · exact Or.inr ⟨p, List.mem_cons_of_mem _ h, rfl⟩
      · simp only [List.mem_cons] at hp
        rcases hp with rfl | h
        · exact Or.inr ⟨_, List.mem_cons_self, rfl⟩
        · rcases ih p h with h | ⟨q, hq, h⟩
          · exact Or.inl h
          · exact Or.inr ⟨q, List.mem_cons_of_mem _ hq, h⟩

theorem insertList_asc (f : V → V → V) (k : K) (v : V) (l : List (K × V)) (h : Ascending l) :
    Ascending (insertList f k v l) := by
  induction l with
  | nil => simp [insertList, Ascending]
  | cons a t ih =>
    obtain ⟨k', v'⟩ := a
    have h' := h
    unfold Ascending at h
    rw [List.pairwise_cons] at h
    unfold insertList
    split
    · rename_i hlt
      unfold Ascending
      rw [List.pairwise_cons]
      refine ⟨?_, h'⟩
      intro b hb
      simp only [List.mem_cons] at hb
      rcases hb with rfl | hb
      · exact hlt
      · exact lt_trans hlt (h.1 b hb)
    · split
      · unfold Ascending
        rw [List.pairwise_cons]
        exact ⟨h.1, h.2⟩
      · rename_i h1 h2
        unfold Ascending
        rw [List.pairwise_cons]
        refine ⟨?_, ih h.2⟩
        intro b hb
        rcases insertList_keys f k v t b hb with hk | ⟨q, hq, hk⟩
        · show k' < b.1
          rw [hk]
          exact lt_of_le_of_ne (not_lt.mp h1) (fun e => h2 e.symm)
        · show k' < b.1
          rw [← hk]
          exact h.1 q hq

/-- `std::map::emplace`: keeps an existing binding. -/
def emplace (m : OMap K V) (k : K) (v : V) : OMap K V :=
  ⟨insertList (fun old _ => old) k v m.items, insertList_asc _ _ _ _ m.asc⟩

/-- `m[k] = v` / `std::map::insert_or_assign`. -/
def assign (m : OMap K V) (k : K) (v : V) : OMap K V :=
  ⟨insertList (fun _ new => new) k v m.items, insertList_asc _ _ _ _ m.asc⟩

end OMap

theorem assoc_insertList (f : V → V → V) (k : K) (v : V) (l : List (K × V))
    (h : Ascending l) (x : K) :
    assoc x (OMap.insertList f k v l) =
      if x = k then some (match assoc k l with | some o => f o v | none => v)
      else assoc x l := by
  induction l with
  | nil =>
    simp only [OMap.insertList, assoc]
  | cons a t ih =>
    obtain ⟨k', v'⟩ := a
    have h' := h
    unfold Ascending at h
    rw [List.pairwise_cons] at h
    have iht := ih h.2
    unfold OMap.insertList
    by_cases hlt : k < k'
    · have hnone : assoc k ((k', v') :: t) = none := by
        have : ∀ (l : List (K × V)), (∀ p ∈ l, k < p.1) → assoc k l = none := by
          intro l
          induction l with
          | nil => intro _; rfl
          | cons b s ihs =>
            obtain ⟨kb, vb⟩ := b
            intro hb
            have h1 := hb (kb, vb) List.mem_cons_self
            simp only [assoc]
            rw [if_neg (ne_of_lt h1)]
            exact ihs (fun p hp => hb p (List.mem_cons_of_mem _ hp))
        apply this
        intro p hp
        simp only [List.mem_cons] at hp
        rcases hp with rfl | hp
        · exact hlt
        · exact lt_trans hlt (h.1 p hp)
      rw [if_pos hlt, hnone]
      simp only [assoc]
    · rw [if_neg hlt]
      by_cases he : k = k'
      · subst he
        rw [if_pos rfl]
        simp only [assoc]
        by_cases hx : x = k
        · simp [hx]
        · simp [hx]
      · rw [if_neg he]
        simp only [assoc]
        rw [iht, if_neg he]
        by_cases hx : x = k'
        · subst hx
          rw [if_pos rfl, if_neg (fun e => he e.symm), if_pos rfl]
        · rw [if_neg hx, if_neg hx]

theorem assoc_eq_none_of_lt {k : K} {l : List (K × V)} (h : ∀ p ∈ l, k < p.1) :
    assoc k l = none := by
  induction l with
  | nil => rfl
  | cons b s ihs =>
    obtain ⟨kb, vb⟩ := b
    have h1 := h (kb, vb) List.mem_cons_self
    simp only [assoc]
    rw [if_neg (ne_of_lt h1)]
    exact ihs (fun p hp => h p (List.mem_cons_of_mem _ hp))

theorem assoc_some_mem {k : K} {v : V} {l : List (K × V)} (h : assoc k l = some v) :
    (k, v) ∈ l := by
  induction l with
  | nil => simp [assoc] at h
  | cons b s ihs =>
    obtain ⟨kb, vb⟩ := b
    simp only [assoc] at h
    split at h
    · rename_i he
      subst he
      injection h with h
      subst h
      exact List.mem_cons_self
    · exact List.mem_cons_of_mem _ (ihs h)

theorem assoc_of_mem {k : K} {v : V} {l : List (K × V)} (hs : Ascending l) (h : (k, v) ∈ l) :
    assoc k l = some v := by
  induction l with
  | nil => simp at h
  | cons b s ihs =>
    obtain ⟨kb, vb⟩ := b
    unfold Ascending at hs
    rw [List.pairwise_cons] at hs
    simp only [List.mem_cons] at h
    rcases h with h | h
    · injection h with h1 h2
      subst h1; subst h2
      simp [assoc]
    · have := hs.1 _ h
      simp only [assoc]
      rw [if_neg (ne_of_gt this)]
      exact ihs hs.2 h

theorem assoc_eq_some_iff {k : K} {v : V} {l : List (K × V)} (hs : Ascending l) :
    assoc k l = some v ↔ (k, v) ∈ l :=
  ⟨assoc_some_mem, assoc_of_mem hs⟩

theorem assoc_eq_none_iff {k : K} {l : List (K × V)} :
    assoc k l = none ↔ ∀ v, (k, v) ∉ l := by
  induction l with
  | nil => simp [assoc]
  | cons b s ihs =>
    obtain ⟨kb, vb⟩ := b
    simp only [assoc]
    split
    · rename_i he
      subst he
      simp only [reduceCtorEq, List.mem_cons, Prod.mk.injEq, true_and, not_or, false_iff]
      intro h
      exact (h vb).1 rfl
    · rename_i he
      rw [ihs]
      simp [he]

/-- Two ascending association lists with the same lookups are equal. -/
theorem ascending_ext : ∀ {l₁ l₂ : List (K × V)}, Ascending l₁ → Ascending l₂ →
    (∀ k, assoc k l₁ = assoc k l₂) → l₁ = l₂
  | [], [], _, _, _ => rfl
  | [], (k, v) :: t, _, _, h => by
    have := h k
    simp [assoc] at this
  | (k, v) :: t, [], _, _, h => by
    have := h k
    simp [assoc] at this
  | (k₁, v₁) :: t₁, (k₂, v₂) :: t₂, h₁, h₂, h => by
    unfold Ascending at h₁ h₂
    rw [List.pairwise_cons] at h₁ h₂
    have hk : k₁ = k₂ := by
      rcases lt_trichotomy k₁ k₂ with hlt | heq | hgt
      · exfalso
        have h1 := h k₁
        have h2 : assoc k₁ ((k₂, v₂) :: t₂) = none := by
          apply assoc_eq_none_of_lt
          intro p hp
          simp only [List.mem_cons] at hp
          rcases hp with rfl | hp
          · exact hlt
          · exact lt_trans hlt (h₂.1 p hp)
        rw [h2] at h1
        simp [assoc] at h1
      · exact heq
      · exfalso
        have h1 := h k₂
        have h2 : assoc k₂ ((k₁, v₁) :: t₁) = none := by
          apply assoc_eq_none_of_lt
          intro p hp
          simp only [List.mem_cons] at hp
          rcases hp with rfl | hp
          · exact hgt
          · exact lt_trans hgt (h₁.1 p hp)
        rw [h2] at h1
        simp [assoc] at h1
    subst hk
    have hv : v₁ = v₂ := by
      have h1 := h k₁
      simpa [assoc] using h1
    subst hv
    have ht : t₁ = t₂ := by
      apply ascending_ext h₁.2 h₂.2
      intro x
      have hx := h x
      simp only [assoc] at hx
      by_cases hxk : x = k₁
      · subst hxk
        rw [assoc_eq_none_of_lt h₁.1, assoc_eq_none_of_lt h₂.1]
      · rw [if_neg hxk, if_neg hxk] at hx
        exact hx
    rw [ht]

namespace OMap

@[ext]
theorem ext {m₁ m₂ : OMap K V} (h : ∀ k, m₁.find k = m₂.find k) : m₁ = m₂ := by
  obtain ⟨l₁, h₁⟩ := m₁
  obtain ⟨l₂, h₂⟩ := m₂
  have : l₁ = l₂ := ascending_ext h₁ h₂ h
  subst this
  rfl

@[simp] theorem find_empty (k : K) : (empty : OMap K V).find k = none := rfl

theorem find_emplace (m : OMap K V) (k : K) (v : V) (x : K) :
    (m.emplace k v).find x = if x = k then some ((m.find k).getD v) else m.find x := by
  unfold find emplace
  rw [assoc_insertList _ _ _ _ m.asc]
  cases assoc k m.items <;> rfl

theorem find_assign (m : OMap K V) (k : K) (v : V) (x : K) :
    (m.assign k v).find x = if x = k then some v else m.find x := by
  unfold find assign
  rw [assoc_insertList _ _ _ _ m.asc]
  cases assoc k m.items <;> rfl

theorem mem_items {m : OMap K V} {k : K} {v : V} : (k, v) ∈ m.items ↔ m.find k = some v :=
  (assoc_eq_some_iff m.asc).symm

end OMap
end
end Verif
