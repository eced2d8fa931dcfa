import Verif.Async.Inv

/-!
# The asynchronous map: the invariants hold
-/

namespace Verif.Async

variable {K V : Type} [DecidableEq K]

theorem exec_calls (x : Item K V) (s : Core K V) : (exec x s).core.calls = s.calls := by
  cases x <;> simp only [exec] <;> (repeat' split) <;> rfl

theorem exec_keyAt (x : Item K V) (s : Core K V) : (exec x s).core.keyAt = s.keyAt := by
  funext c p
  unfold Core.keyAt
  rw [exec_calls]

theorem exec_handler (x : Item K V) (s : Core K V) : (exec x s).core.handler = s.handler := by
  funext c
  unfold Core.handler
  rw [exec_calls]

omit [DecidableEq K] in
theorem register_eq (s : Core K V) (c p : Nat) :
    (s.handler c = true ∧ s.register c p = .failCheck c p) ∨ (s.handler c = false ∧ s.register c p = .waitCheck c p) := by
  unfold Core.register
  cases h : s.handler c with
  | true => exact .inl ⟨rfl, rfl⟩
  | false => exact .inr ⟨rfl, rfl⟩

omit [DecidableEq K] in
theorem good_register {s : Core K V} {c p : Nat} (h : At s c p) : Good s (s.register c p) := by
  rcases register_eq s c p with ⟨h1, h2⟩ | ⟨h1, h2⟩ <;> rw [h2]
  · exact ⟨h, h1⟩
  · exact h

omit [DecidableEq K] in
theorem values_some {s : Core K V} {ks : List K} (h : ∀ k ∈ ks, s.ready k = true) : ∃ vs, s.values ks = some vs := by
  induction ks with
  | nil => exact ⟨[], rfl⟩
  | cons k ks ih =>
    obtain ⟨vs, hvs⟩ := ih (fun k' hk => h k' (List.mem_cons_of_mem _ hk))
    have hk := h k List.mem_cons_self
    unfold Core.ready at hk
    cases hv : s.value k with
    | none => rw [hv] at hk; cases hk
    | some v => exact ⟨v :: vs, by unfold Core.values; rw [hv, hvs]⟩

omit [DecidableEq K] in
theorem keys_eq {s : Core K V} {c : Nat} {r : Call K} (h : s.calls[c]? = some r) : s.keys c = r.keys := by
  unfold Core.keys
  rw [h]
  rfl

omit [DecidableEq K] in
theorem keyAt_eq {s : Core K V} {c p : Nat} {r : Call K} (h : s.calls[c]? = some r) : s.keyAt c p = r.keys[p]? := by
  unfold Core.keyAt
  rw [h]
  rfl

omit [DecidableEq K] in
theorem Past.all {s : Core K V} {c p : Nat} (h : Past s c p) (hp : p = (s.keys c).length) : AllReady s c := by
  obtain ⟨r, h1, h2, h3, h4⟩ := h
  rw [keys_eq h1] at hp
  refine ⟨r, h1, fun k hk => ⟨h3 k hk, ?_⟩⟩
  obtain ⟨i, hi, hik⟩ := List.getElem_of_mem hk
  exact h4 i k (by omega) (by rw [List.getElem?_eq_getElem hi, hik])

omit [DecidableEq K] in
theorem Past.at {s : Core K V} {c p : Nat} (h : Past s c p) (hp : p ≠ (s.keys c).length) : At s c p := by
  obtain ⟨r, h1, h2, h3, h4⟩ := h
  rw [keys_eq h1] at hp
  exact ⟨r, h1, by omega, h3, h4⟩

/-! ## Items stay good, and nothing undefined happens -/

theorem exec_good {x : Item K V} {s : Core K V} (hx : Good s x)
    (ha : ∀ k c q, (k, c, q) ∈ s.awaiting → ∃ p, q = p + 1 ∧ At s c p ∧ s.keyAt c p = some k ∧
      s.ready k = false ∧ s.failed k = false)
    (hf : ∀ k c, (k, c) ∈ s.failing → s.handler c = true) :
    ∀ y ∈ (exec x s).items, Good (exec x s).core y := by
  have hle := exec_le x s
  -- items that are good before are good after
  suffices h : ∀ y ∈ (exec x s).items, Good s y ∨ Good (exec x s).core y from
    fun y hy => (h y hy).elim (fun h' => hle.good h') id
  cases x with
  | create k => intro y hy; cases hy
  | ensure c i =>
    obtain ⟨r, h1, h2, h3, h4⟩ := hx
    simp only [exec, keyAt_eq h1]
    cases hk : r.keys[i]? with
    | none =>
      intro y hy
      rw [List.mem_singleton.mp hy]
      left
      apply good_register
      have hlen : i = r.keys.length := by
        have := List.getElem?_eq_none_iff.mp hk
        omega
      refine ⟨r, h1, ?_, ?_, fun j k hj => absurd hj (Nat.not_lt_zero j)⟩
      · cases hr : r.keys with
        | nil => exact absurd hr h2
        | cons a l => simp
      · intro k hk'
        obtain ⟨j, hj, hjk⟩ := List.getElem_of_mem hk'
        exact h4 j k (by omega) (by rw [List.getElem?_eq_getElem hj, hjk])
    | some k =>
      have hlt : i < r.keys.length := by
        rcases Nat.lt_or_ge i r.keys.length with h | h
        · exact h
        · rw [List.getElem?_eq_none_iff.mpr h] at hk; cases hk
      simp only
      split
      · rename_i hfl
        intro y hy
        rw [List.mem_singleton.mp hy]
        left
        refine ⟨r, h1, h2, hlt, ?_⟩
        intro j k' hj hk'
        by_cases hji : j < i
        · exact h4 j k' hji hk'
        · have : j = i := by omega
          subst this
          rw [hk] at hk'; cases hk'; exact hfl
      · intro y hy
        rw [List.mem_singleton.mp hy]
        right
        refine ⟨r, h1, hlt, ?_⟩
        intro j k' hj hk'
        show (decide (k = k') || s.flag k') = true
        by_cases hji : j < i
        · rw [h4 j k' hji hk', Bool.or_true]
        · have : j = i := by omega
          subst this
          rw [hk] at hk'; cases hk'
          rw [decide_eq_true rfl, Bool.true_or]
  | ensurePush c i =>
    obtain ⟨r, h1, h3, h4⟩ := hx
    have hk : r.keys[i]? = some r.keys[i] := List.getElem?_eq_getElem h3
    simp only [exec, keyAt_eq h1, hk]
    intro y hy
    left
    rcases List.mem_cons.mp hy with rfl | hy
    · exact h4 i _ (Nat.le_refl i) hk
    · rw [List.mem_singleton.mp hy]
      exact ⟨r, h1, List.ne_nil_of_length_pos (by omega), h3, fun j k hj hk => h4 j k (by omega) hk⟩
  | failCheck c p =>
    obtain ⟨k, hk⟩ := hx.1.key
    simp only [exec, hk]
    intro y hy
    rw [List.mem_singleton.mp hy]
    left
    split
    · exact hx.1
    · exact hx
  | failLock c p =>
    obtain ⟨k, hk⟩ := hx.1.key
    simp only [exec, hk]
    split
    · intro y hy
      left
      rcases List.mem_cons.mp hy with rfl | hy
      · exact hx.2
      · rw [List.mem_singleton.mp hy]; exact hx.1
    · intro y hy
      left
      rw [List.mem_singleton.mp hy]; exact hx.1
  | waitCheck c p =>
    obtain ⟨k, hk⟩ := At.key hx
    simp only [exec, hk]
    intro y hy
    rw [List.mem_singleton.mp hy]
    left
    split
    · rename_i hr; exact At.next hx hk hr
    · exact hx
  | waitLock c p =>
    obtain ⟨k, hk⟩ := At.key hx
    simp only [exec, hk]
    split
    · intro y hy
      rw [List.mem_singleton.mp hy]
      exact .inl hx
    · split
      · rename_i hr
        intro y hy
        rw [List.mem_singleton.mp hy]
        exact .inl (At.next hx hk hr)
      · intro y hy
        rw [List.mem_singleton.mp hy]
        exact .inl hx
  | record c p =>
    simp only [exec]
    split <;> (intro y hy; cases hy)
  | cont c p =>
    simp only [exec]
    intro y hy
    rw [List.mem_singleton.mp hy]
    left
    split
    · rename_i hp; exact Past.all hx hp
    · rename_i hp; exact good_register (Past.at hx hp)
  | consume c =>
    simp only [exec]
    split <;> (intro y hy; cases hy)
  | failTask c =>
    simp only [exec]
    split
    · intro y hy; rw [List.mem_singleton.mp hy]; exact .inl trivial
    · intro y hy; cases hy
  | set k v =>
    simp only [exec]
    split
    · intro y hy; cases hy
    · intro y hy
      right
      obtain ⟨⟨k', c, q⟩, hw, rfl⟩ := List.mem_map.mp hy
      obtain ⟨hw1, hw2⟩ := List.mem_filter.mp hw
      have hk' : k' = k := by simpa using hw2
      subst hk'
      obtain ⟨p, rfl, hat, hkey, -, -⟩ := ha k' c q hw1
      have hle' : Le s { s with
          value := fun k'' => if k' = k'' then some v else s.value k''
          awaiting := s.awaiting.filter fun w => !decide (w.1 = k')
          failing := s.failing.filter fun w => !decide (w.1 = k') } := by
        refine ⟨?_, fun _ h => h, fun _ h => h, fun _ _ h => h, fun _ h => h, fun _ h => h⟩
        intro k'' h
        show (if k' = k'' then some v else s.value k'').isSome = true
        split
        · rfl
        · exact h
      exact At.next (hle'.at hat) hkey (by
        show (if k' = k' then some v else s.value k').isSome = true
        rw [if_pos rfl]; rfl)
  | failNode k =>
    simp only [exec]
    split
    · intro y hy; cases hy
    · intro y hy
      left
      obtain ⟨⟨k', c⟩, hw, rfl⟩ := List.mem_map.mp hy
      exact hf k' c (List.mem_filter.mp hw).1

end Verif.Async
