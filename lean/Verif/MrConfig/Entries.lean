import Verif.MrConfig.Output

/-!
# The entries of a generated configuration
-/

namespace Verif.MrConfig

open Verif

section
variable {N : Type} {repos : List (Str × Json N)}

theorem involved_ok {args : Args} {m : Str} {inv : Involved} (hall : args.all = false)
    (h : involved args repos (some m) = .ok inv) :
    (∀ n, n ∈ inv.toInclude ↔ Needed repos m n) ∧
    (∀ n, n ∈ inv.toSetup ↔ Needed repos m n ∨ ∃ a k, Needed repos m a ∧ Layer repos a k n) := by
  simp only [involved, hall, Bool.false_eq_true, if_false] at h
  obtain ⟨h1, h2, _⟩ := reachable_ok h
  exact ⟨h1, h2⟩

theorem involved_all {args : Args} {m : Str} {inv : Involved} (hall : args.all = true)
    (h : involved args repos (some m) = .ok inv) :
    inv.toInclude = repos.map Prod.fst ∧ inv.toSetup = repos.map Prod.fst := by
  simp only [involved, hall, if_true] at h
  cases h
  exact ⟨rfl, rfl⟩

/-- The entry of an included repository, in terms of the entries set up. -/
theorem entry_of {env : Env N} {skip : Option Str} {inv : Involved} {es : List (Str × Json N)}
    {given : Option Str} (h : populate env repos skip inv = some es)
    (hsub : ∀ n ∈ inv.toInclude, n ∈ inv.toSetup) {n : Str} (hn : n ∈ inv.toInclude) :
    ∃ c c0 : Obj N, Entry (output given es) n c.items ∧
      setupRepo env repos skip (repos.length + 1) n = some c0 ∧
      ((skip = some n ∧ c = c0) ∨ (skip ≠ some n ∧ ∃ l, assoc n repos = some (.obj l) ∧
        addLayers (fun v => rootIn (if v ∈ inv.toSetup then setupRepo env repos skip (repos.length + 1) v
          else none)) skip l altDirs c0 = some c)) := by
  obtain ⟨entries, h1, h2, h3, h4⟩ := populate_some h
  obtain ⟨c0, hc0⟩ := h2 n (hsub n hn)
  have hfind : entries.find n = some c0 := by rw [h1, if_pos (hsub n hn), hc0]
  have hmem : n ∈ es.map Prod.fst := h3 ▸ hn
  have hass : ∀ k, assoc k (toObj es) = if k ∈ es.map Prod.fst then finish repos entries skip k else none :=
    toObj_find h4
  have hfin : ∃ v, finish repos entries skip n = some v := by
    obtain ⟨e, he, rfl⟩ := List.mem_map.mp hmem
    exact ⟨_, h4 e he⟩
  obtain ⟨v, hv⟩ := hfin
  have ha := hass n
  rw [if_pos hmem, hv] at ha
  unfold finish at hv
  simp only [hfind] at hv
  split at hv
  · rename_i hs
    cases hv
    exact ⟨c0, c0, output_entry.mpr ha, hc0, Or.inl ⟨hs, rfl⟩⟩
  · rename_i hs
    obtain ⟨l, d, root, hl, _⟩ := setupRepo_given hs hc0
    simp only [hl] at hv
    obtain ⟨c, hc, rfl⟩ := Option.map_eq_some_iff.mp hv
    refine ⟨c, c0, output_entry.mpr ha, hc0, Or.inr ⟨hs, l, hl, ?_⟩⟩
    rw [← hc]
    congr 1
    funext v
    rw [h1]

theorem entry_include {env : Env N} {skip : Option Str} {inv : Involved} {es : List (Str × Json N)}
    {given : Option Str} (h : populate env repos skip inv = some es) {n : Str} {c : List (Str × Json N)}
    (he : Entry (output given es) n c) : n ∈ inv.toInclude := by
  obtain ⟨entries, _, _, h3, h4⟩ := populate_some h
  have hass := toObj_find h4 n
  rw [output_entry.mp he] at hass
  split at hass
  · rename_i hm; exact h3 ▸ hm
  · cases hass

theorem entry_unique {out : Json N} {n : Str} {c c' : List (Str × Json N)} (h : Entry out n c)
    (h' : Entry out n c') : c = c' := by
  obtain ⟨top, rs, rfl, h2, h3⟩ := h
  obtain ⟨top', rs', e, h2', h3'⟩ := h'
  cases e
  rw [h2] at h2'; cases h2'
  rw [h3] at h3'; cases h3'
  rfl

/-- Fields of the entry before the layers are added. -/
theorem base_find {l : List (Str × Json N)} {root : Json N} (k : Str) :
    (takeOver l (OMap.empty.assign "workspace_root".toList root) : Obj N).find k =
      if k = "workspace_root".toList then some root
      else if k ∈ takeOverKeys then assoc k l >>= fun v => match v with | .null => none | v => some v
      else none := by
  rw [takeOver_find, OMap.find_assign, find_empty]
  by_cases hw : k = "workspace_root".toList
  · subst hw
    rw [if_neg (fun h => ws_not_taken h.1), if_pos rfl, if_pos rfl]
  · rw [if_neg hw, if_neg hw]
    by_cases ht : k ∈ takeOverKeys
    · rw [if_pos ht]
      cases ha : assoc k l with
      | none => simp [field, ha]
      | some v =>
        cases v <;> simp [field, ha, ht]
    · rw [if_neg ht, if_neg (fun h => ht h.1)]

/-- Fields of the entry of a repository left to the user. -/
theorem skip_find {l : List (Str × Json N)} (k : Str) :
    (takeOver l OMap.empty : Obj N).find k =
      if k ∈ takeOverKeys then assoc k l >>= fun v => match v with | .null => none | v => some v
      else none := by
  rw [takeOver_find, find_empty]
  by_cases ht : k ∈ takeOverKeys
  · rw [if_pos ht]
    cases ha : assoc k l with
    | none => simp [field, ha]
    | some v => cases v <;> simp [field, ha, ht]
  · rw [if_neg ht, if_neg (fun h => ht h.1)]

theorem taken_iff {n k : Str} {l : List (Str × Json N)} {v : Json N} (hl : assoc n repos = some (.obj l)) :
    (assoc k l >>= fun v => match v with | .null => none | v => some v) = some v ↔ Has repos n k v := by
  unfold Has
  cases ha : assoc k l with
  | none =>
    constructor
    · intro e; cases e
    · rintro ⟨_, l', h1, h2⟩
      rw [hl] at h1; cases h1
      rw [ha] at h2; cases h2
  | some w =>
    constructor
    · intro e
      cases w with
      | null => cases e
      | _ => cases e; exact ⟨(by intro e; cases e), l, hl, ha⟩
    · rintro ⟨hv, l', h1, h2⟩
      rw [hl] at h1; cases h1
      rw [ha] at h2; cases h2
      cases v with
      | null => exact absurd rfl hv
      | _ => rfl

theorem mem_altDirs {k : Str} : k ∈ altDirs ↔
    k = "target_root".toList ∨ k = "rule_root".toList ∨ k = "expression_root".toList := by
  simp only [altDirs, List.mem_cons, List.not_mem_nil, or_false]

end

end Verif.MrConfig
