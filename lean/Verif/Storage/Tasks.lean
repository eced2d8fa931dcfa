import Verif.Storage.Promote
import Verif.Chunker.Props

/-!
# Compactification tasks running alone, and the chunker as the source of chunks
-/

namespace Verif.Storage

open Prog

variable {E : Env} {U : Bytes → Prop} {rk : Ranks E U}

/-- In the absence of other tasks, the file to be split is found. -/
theorem splitSourceL_run (ok : E.OK U) {c : Cas} {d : Id} {σ : World} {b : Bytes}
    (hi : Inv E U rk σ) (hb : σ 0 (.cas c d) = some b) :
    run (splitSourceL c.isTree d) σ = some (some b, σ) := by
  obtain ⟨hU, hd⟩ := hi.cas _ _ _ _ hb
  unfold splitSourceL
  cases c with
  | tree =>
    simp only [Cas.isTree, if_true]
    rw [run_read]
    simp only [World.at, hb, Option.isSome_some, if_true]
    rw [show run (readL ⟨0, .cas .tree d⟩) σ = some (σ 0 (.cas .tree d), σ) from rfl, hb]
  | file =>
    simp only [Cas.isTree, Bool.false_eq_true, if_false]
    rw [run_read]
    simp only [World.at, hb, Option.isSome_some, if_true]
    rw [show run (readL ⟨0, .cas .file d⟩) σ = some (σ 0 (.cas .file d), σ) from rfl, hb]
  | exec =>
    simp only [Cas.isTree, Bool.false_eq_true, if_false]
    rw [run_read]
    simp only [World.at]
    obtain ⟨o, hv⟩ : ∃ o, σ 0 (.cas .file d) = o := ⟨_, rfl⟩
    cases o with
    | some b' =>
      simp only [hv, Option.isSome_some, if_true]
      rw [show run (readL ⟨0, .cas .file d⟩) σ = some (σ 0 (.cas .file d), σ) from rfl, hv]
      have : b' = b := hi.cas_eq ok hv hU hd
      rw [this]
    | none =>
      simp only [hv, Option.isSome_none, Bool.false_eq_true, if_false]
      rw [run_read]
      simp only [World.at, hb, Option.isSome_some, if_true]
      rw [show run (readL ⟨0, .cas .exec d⟩) σ = some (σ 0 (.cas .exec d), σ) from rfl, hb]

theorem splitL_run (ok : E.OK U) {c : Cas} {d : Id} {σ : World} {b : Bytes}
    (hi : Inv E U rk σ) (hb : σ 0 (.cas c d) = some b) :
    ∃ σ', run (splitL E c.isTree d) σ = some (some ((E.chunks b).map E.hashBlob), σ') ∧
      (2 ≤ (E.chunks b).length → (σ' 0 (.large c.isTree d)).isSome) := by
  obtain ⟨hU, hd⟩ := hi.cas _ _ _ _ hb
  have hd' : E.hashL c.isTree b = d := (hash_isTree c b).symm.trans hd
  unfold splitL
  rw [run_bind]
  unfold readEntry
  rw [run_read]
  simp only [World.at]
  cases hv : σ 0 (.large c.isTree d) with
  | some e =>
    obtain ⟨b', hb'⟩ := hi.large _ _ _ _ hv
    have : b' = b := hashL_inj ok hb'.1 hU (hb'.2.1.trans hd'.symm)
    subst this
    simp only [hb'.2.2.1]
    exact ⟨σ, rfl, fun _ => by rw [hv]; rfl⟩
  | none =>
    simp only
    rw [show run (pure none : Prog (Option (List Id))) σ = some (none, σ) from rfl]
    simp only [Option.bind_some]
    rw [run_bind, splitSourceL_run ok hi hb]
    simp only [Option.bind_some]
    rw [run_bind]
    obtain ⟨r, σ1, e1, (i1 : Inv E U rk σ1), (l1 : CLe E σ σ1), rfl, h1⟩ :=
      wp_run (M := cmode E U rk) (fun h => h) hi (storeChunksL_spec ok (E.chunks b) hi
        (fun x hx => ok.chunks_mem b x hU hx)
        (fun x hx => by rw [ok.chunks_chunk b x hx]; simp))
    rw [e1]
    simp only [Option.bind_some]
    rw [run_bind]
    obtain ⟨r, σ2, e2, (i2 : Inv E U rk σ2), (l2 : CLe E σ1 σ2), h2⟩ :=
      wp_run (M := cmode E U rk) (fun h => h) i1 (writeEntryL_spec ok hU hd' h1 (fun ht => by
        cases c with
        | tree => exact i1.tree _ _ _ (l1.treeAt (Or.inl hb))
        | file => cases ht
        | exec => cases ht))
    rw [e2]
    exact ⟨σ2, rfl, h2⟩

theorem splitLarge_run (ok : E.OK U) {c : Cas} {d : Id} {σ : World} (hi : Inv E U rk σ) :
    ∃ σ', run (splitLarge E c d) σ = some (true, σ') ∧
      ∀ b, σ 0 (.cas c d) = some b → 2 ≤ (E.chunks b).length →
        σ' 0 (.cas c d) = none ∧ (σ' 0 (.large c.isTree d)).isSome := by
  unfold splitLarge
  rw [run_read]
  simp only [World.at]
  cases hv : σ 0 (.cas c d) with
  | none => exact ⟨σ, rfl, fun b h => by cases h⟩
  | some b =>
    simp only
    rw [(hi.cas _ _ _ _ hv).2, run_bind]
    obtain ⟨σ1, e1, h1⟩ := splitL_run (rk := rk) ok hi hv
    rw [e1]
    simp only [Option.bind_some, List.length_map]
    by_cases hl : (E.chunks b).length < 2
    · rw [if_pos hl]
      exact ⟨σ1, rfl, fun b' h h' => by cases h; omega⟩
    · rw [if_neg hl]
      refine ⟨σ1.set ⟨0, .cas c d⟩ none, rfl, fun b' _ _ => ⟨set_same _ _ _ _, ?_⟩⟩
      rw [set_other (by rintro ⟨_, h⟩; cases h)]
      exact h1 (by omega)

/-- Every task succeeds when running alone. -/
theorem task_run (ok : E.OK U) (t : Task) {σ : World} (hi : Inv E U rk σ) :
    ∃ σ', run (t.run E) σ = some (true, σ') := by
  cases t with
  | removeInvalid c d =>
    obtain ⟨r, σ', h, -, -, rfl⟩ :=
      wp_run (M := cmode E U rk) (fun h => h) hi (removeInvalid_spec (c := c) (d := d) ok)
    exact ⟨σ', h⟩
  | removeSpliced t d =>
    obtain ⟨r, σ', h, -, -, rfl⟩ :=
      wp_run (M := cmode E U rk) (fun h => h) hi (removeSpliced_spec (t := t) (d := d) ok)
    exact ⟨σ', h⟩
  | splitLarge c d =>
    obtain ⟨σ', h, -⟩ := splitLarge_run (rk := rk) (c := c) (d := d) ok hi
    exact ⟨σ', h⟩

/-! ## The chunker -/

/-- The chunks the loop around `FileChunker` collects for a file that can be read. -/
def chunkerChunks (P : Chunker.Params) (b : Bytes) : List Bytes :=
  match Chunker.drain P (fun _ => true) (b.length + 1) 0 (Chunker.init P b) with
  | .done cs _ => cs
  | _ => []

theorem chunkerChunks_chunking (P : Chunker.Params) (h4 : 4 ≤ P.avg) (b : Bytes) :
    Chunker.Chunking P b (chunkerChunks P b) := by
  obtain ⟨cs, st, h1, h2, h3⟩ :=
    Chunker.C11_chunking P h4 b (fun _ => true) (b.length + 1) (by omega)
  unfold chunkerChunks
  rw [h1]
  exact h2 (h3 (fun _ => rfl))

end Verif.Storage
