import Verif.Storage.Trace

/-!
# Promotion of large-object entries by lookups
-/

namespace Verif.Storage

open Prog

variable {E : Env} {U : Bytes → Prop} {rk : Ranks E U}

theorem run_read {A : Type} (l : Loc) (f : Option Bytes → Prog A) (σ : World) :
    run (readL l >>= f) σ = run (f (σ.at l)) σ := by
  rw [run_bind]
  rfl

/-- One generation that does not have the object. -/
theorem uplinkBlob_absent {g : Nat} {d : Id} {x : Bool} {σ : World} {fuel : Nat} (hf : 1 ≤ fuel)
    (h0 : σ 0 (.cas (casOf x) d) = none) (hg : σ g (.cas (casOf x) d) = none)
    (hl : σ g (.large false d) = none) :
    run (uplinkBlob E fuel g d x true true) σ = some (false, σ) := by
  cases fuel with
  | zero => omega
  | succ fuel =>
    simp only [uplinkBlob, blobNoSync, findBlob, if_true]
    rw [run_read]
    simp only [World.at, h0, Option.isSome_none, Bool.false_eq_true, if_false]
    rw [run_read]
    simp only [World.at, hg, trySplice, readEntry]
    rw [run_bind, run_bind, run_read]
    simp only [World.at, hl]
    rfl

/-- A generation that has the object as large-object entry only. -/
theorem uplinkBlob_promotes (ok : E.OK U) {g : Nat} {d : Id} {x : Bool} {σ : World} {fuel : Nat}
    (hi : Inv E U rk σ) (hf : 2 ≤ fuel)
    (h0 : σ 0 (.cas (casOf x) d) = none) (hg : σ g (.cas (casOf x) d) = none)
    (hl : (σ g (.large false d)).isSome) :
    ∃ σ', run (uplinkBlob E fuel g d x true true) σ = some (true, σ') ∧ Inv E U rk σ' ∧ Le E σ σ' ∧
      (σ' 0 (.large false d)).isSome ∧ (σ' 0 (.cas (casOf x) d)).isSome := by
  cases fuel with
  | zero => omega
  | succ fuel =>
    simp only [uplinkBlob, blobNoSync, findBlob, if_true]
    rw [run_read]
    simp only [World.at, h0, Option.isSome_none, Bool.false_eq_true, if_false]
    rw [run_read]
    simp only [World.at, hg]
    rw [run_bind]
    obtain ⟨r, σ1, e1, (i1 : Inv E U rk σ1), (l1 : Le E σ σ1), h1, h2⟩ :=
      wp_run (M := mode E U rk False) (fun h => h) hi
        (trySplice_spec (g := g) (t := false) (d := d) ok hi)
    rw [e1]
    obtain ⟨b, rfl⟩ := Option.isSome_iff_exists.1 (h2 hl)
    have hb := h1 b rfl
    simp only [Option.bind_some, uplinkFound, if_true]
    rw [run_bind]
    have hl1 : (σ1 g (.large false d)).isSome := by
      obtain ⟨e, _, _, he, -⟩ := hb
      rw [he]; rfl
    obtain ⟨r, σ2, e2, (i2 : Inv E U rk σ2), (l2 : Le E σ1 σ2), h3, h4⟩ :=
      wp_run (M := mode E U rk False) (fun h => h) i1
        (uplinkLarge_spec (g := g) (t := false) (d := d) (fuel := fuel) ok i1
          (Or.inr (by omega)) (fun h => by cases h))
    rw [show uplinkLargeWith E (fun q => uplinkBlob E fuel g q false true false) g false d
      = uplinkLarge E fuel g false d from rfl, e2]
    simp only [Option.bind_some]
    rw [run_bind]
    obtain ⟨hU, hd⟩ := i1.largeAt ok hb
    obtain ⟨r, σ3, e3, (i3 : Inv E U rk σ3), (l3 : Le E σ2 σ3), h5, h6⟩ :=
      wp_run (M := mode E U rk False) (fun h => h) i2
        (storeObj_spec (g := 0) (c := casOf x) ok hU (fun h => by cases x <;> cases h))
    rw [e3]
    subst h5
    refine ⟨σ3, rfl, i3, (l1.trans l2).trans l3, ?_, ?_⟩
    · obtain ⟨e, he⟩ := Option.isSome_iff_exists.1 (h4 hl1)
      obtain ⟨b', hb'⟩ := i2.large _ _ _ _ he
      obtain ⟨e', he', -⟩ := l3.large _ _ _ _ _ he hb'.2.2.1
      rw [he']; rfl
    · have : E.hash (casOf x) b = d := by cases x <;> exact hd
      rw [this] at h6
      rw [h6]; rfl

theorem anyOf_promotes (ok : E.OK U) {d : Id} {x : Bool} {σ : World} {fuel : Nat}
    (hi : Inv E U rk σ) (hf : 2 ≤ fuel) (h0 : σ 0 (.cas (casOf x) d) = none) (gs : List Nat)
    (hgs : ∀ g ∈ gs, σ g (.cas (casOf x) d) = none)
    (hl : ∃ g ∈ gs, (σ g (.large false d)).isSome) :
    ∃ σ', run (anyOf (fun g => uplinkBlob E fuel g d x true true) gs) σ = some (true, σ') ∧
      Inv E U rk σ' ∧ Le E σ σ' ∧ (σ' 0 (.large false d)).isSome ∧
      (σ' 0 (.cas (casOf x) d)).isSome := by
  induction gs with
  | nil => obtain ⟨g, hg, -⟩ := hl; cases hg
  | cons g gs ih =>
    simp only [anyOf]
    rw [run_bind]
    cases hv : σ g (.large false d) with
    | none =>
      rw [uplinkBlob_absent (by omega) h0 (hgs g (by simp)) hv]
      simp only [Option.bind_some, Bool.false_eq_true, if_false]
      refine ih (fun g' hg' => hgs g' (List.mem_cons_of_mem _ hg')) ?_
      obtain ⟨g', hg', hs⟩ := hl
      rcases List.mem_cons.1 hg' with rfl | hg'
      · rw [hv] at hs; cases hs
      · exact ⟨g', hg', hs⟩
    | some e =>
      obtain ⟨σ', h1, h2⟩ := uplinkBlob_promotes (rk := rk) ok hi hf h0 (hgs g (by simp))
        (by rw [hv]; rfl)
      rw [h1]
      simp only [Option.bind_some, if_true]
      exact ⟨σ', rfl, h2⟩

end Verif.Storage
