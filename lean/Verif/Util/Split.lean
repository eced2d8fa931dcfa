import Verif.Util.OMap
import Mathlib.Data.List.Basic

/-!
# Splitting strings at a separator, and joining them again
-/

namespace Verif

/-- Split a string at every occurrence of `c`. -/
def splitAt (c : Char) : Str → List Str
  | [] => [[]]
  | x :: xs =>
    if x = c then [] :: splitAt c xs
    else
      match splitAt c xs with
      | [] => [[x]]
      | h :: t => (x :: h) :: t

/-- Join strings with separator `c`. -/
def joinWith (c : Char) : List Str → Str
  | [] => []
  | [a] => a
  | a :: b :: t => a ++ c :: joinWith c (b :: t)

theorem splitAt_ne_nil (c : Char) (s : Str) : splitAt c s ≠ [] := by
  cases s with
  | nil => simp [splitAt]
  | cons x xs =>
    unfold splitAt
    split
    · simp
    · split <;> simp

theorem splitAt_cons_sep (c : Char) (s : Str) : splitAt c (c :: s) = [] :: splitAt c s := by
  simp [splitAt]

theorem splitAt_cons_of_ne {c x : Char} (h : x ≠ c) (s : Str) :
    ∃ a t, splitAt c s = a :: t ∧ splitAt c (x :: s) = (x :: a) :: t := by
  cases hs : splitAt c s with
  | nil => exact absurd hs (splitAt_ne_nil c s)
  | cons a t =>
    refine ⟨a, t, rfl, ?_⟩
    simp [splitAt, h, hs]

theorem splitAt_noSep {c : Char} {s : Str} (h : c ∉ s) : splitAt c s = [s] := by
  induction s with
  | nil => rfl
  | cons x xs ih =>
    have hx : x ≠ c := fun e => h (e ▸ List.mem_cons_self)
    have hxs := ih (fun m => h (List.mem_cons_of_mem _ m))
    simp [splitAt, hx, hxs]

theorem splitAt_append_sep {c : Char} (a s : Str) :
    splitAt c (a ++ c :: s) = splitAt c a ++ splitAt c s := by
  induction a with
  | nil => simp [splitAt]
  | cons x xs ih =>
    by_cases hx : x = c
    · simp [splitAt, hx, ih]
    · cases h : splitAt c xs with
      | nil => exact absurd h (splitAt_ne_nil c xs)
      | cons b t =>
        rw [List.cons_append]
        simp [splitAt, hx, ih, h]

theorem splitAt_append_noSep {c : Char} {a : Str} (h : c ∉ a) (s : Str) :
    splitAt c (a ++ c :: s) = a :: splitAt c s := by
  rw [splitAt_append_sep, splitAt_noSep h, List.singleton_append]

theorem splitAt_mem_noSep (c : Char) (s : Str) : ∀ a ∈ splitAt c s, c ∉ a := by
  induction s with
  | nil => simp [splitAt]
  | cons x xs ih =>
    by_cases hx : x = c
    · subst hx
      rw [splitAt_cons_sep]
      intro a ha
      rcases List.mem_cons.1 ha with rfl | h
      · simp
      · exact ih a h
    · obtain ⟨b, t, h1, h2⟩ := splitAt_cons_of_ne hx xs
      rw [h2]
      rw [h1] at ih
      intro a ha
      rcases List.mem_cons.1 ha with rfl | h
      · intro hc
        rcases List.mem_cons.1 hc with e | hc
        · exact hx e.symm
        · exact ih b List.mem_cons_self hc
      · exact ih a (List.mem_cons_of_mem _ h)

theorem join_splitAt (c : Char) (s : Str) : joinWith c (splitAt c s) = s := by
  induction s with
  | nil => rfl
  | cons x xs ih =>
    by_cases hx : x = c
    · subst hx
      rw [splitAt_cons_sep]
      cases h : splitAt x xs with
      | nil => exact absurd h (splitAt_ne_nil x xs)
      | cons a t =>
        rw [h] at ih
        simp only [joinWith, ih, List.nil_append]
    · obtain ⟨b, t, h1, h2⟩ := splitAt_cons_of_ne hx xs
      rw [h2]
      rw [h1] at ih
      cases t with
      | nil => simp only [joinWith] at ih ⊢; rw [ih]
      | cons d t => simp only [joinWith, List.cons_append] at ih ⊢; rw [ih]

theorem splitAt_join {c : Char} {l : List Str} (hl : l ≠ []) (h : ∀ a ∈ l, c ∉ a) :
    splitAt c (joinWith c l) = l := by
  induction l with
  | nil => exact absurd rfl hl
  | cons a t ih =>
    cases t with
    | nil => exact splitAt_noSep (h a List.mem_cons_self)
    | cons b t =>
      rw [joinWith, splitAt_append_noSep (h a List.mem_cons_self),
        ih (by simp) (fun x hx => h x (List.mem_cons_of_mem _ hx))]

theorem joinWith_cons (c : Char) (a : Str) {l : List Str} (h : l ≠ []) :
    joinWith c (a :: l) = a ++ c :: joinWith c l := by
  cases l with
  | nil => exact absurd rfl h
  | cons b t => rfl

theorem joinWith_append (c : Char) {l m : List Str} (hl : l ≠ []) (hm : m ≠ []) :
    joinWith c (l ++ m) = joinWith c l ++ c :: joinWith c m := by
  induction l with
  | nil => exact absurd rfl hl
  | cons a t ih =>
    cases t with
    | nil => rw [List.singleton_append, joinWith_cons c a hm]; rfl
    | cons b t =>
      rw [List.cons_append, joinWith_cons c a (by simp), ih (by simp), joinWith_cons c a (by simp)]
      simp

end Verif
