import Verif.Remote.DownloadProps

/-!
# C82: examples and violations

Object 2 is a tree with the entry 1, and object 3 a tree with the entries 1 and 2. The object 1 has the chunks 10 and 11.
-/

namespace Verif.Remote.Download

open Verif.Remote.Upload (Closed Grows Below Safe)

/-- The entries of trees. -/
def exSub : Nat → List Nat
  | 2 => [1]
  | 3 => [1, 2]
  | _ => []

/-- A storage that has everything, where nothing goes wrong. -/
def exNet : Net Nat where
  tree d := d = 2 ∨ d = 3
  sub := exSub
  chunks d := if d = 1 then [10, 11] else []
  flaky _ := False
  given _ := True
  honest := True

theorem exNet_ok : exNet.OK exSub where
  kids d k hk := by
    refine ⟨?_, hk⟩
    unfold exSub at hk
    split at hk
    · exact .inl rfl
    · exact .inr rfl
    · cases hk
  steady _ h := h.elim
  honest := trivial

theorem exRank : ∀ d, exNet.tree d → ∀ k ∈ exNet.sub d, (fun d => d) k < d := by
  rintro d (rfl | rfl) k hk
  · have : k = 1 := by simpa [exNet, exSub] using hk
    subst this
    decide
  · have : k = 1 ∨ k = 2 := by simpa [exNet, exSub] using hk
    rcases this with rfl | rfl <;> decide

/-- The hypotheses of `C82_possible` are met, and those of `C82_parallel_partial`, by an execution that stores three
objects. -/
example : ∃ n s' done', Parallel exNet true n [3] [] [] true s' done' ∧ Safe exSub [3] [] true s' := by
  obtain ⟨n, s', done', h⟩ := (C82_possible (split := true) (N := exNet) (fun d => d) exRank (req := [3])
    (fun _ _ => trivial) []).2
  exact ⟨n, s', done', h, C82_parallel_partial exNet_ok (by simp [Closed]) h⟩

example : ∃ n s', Sequential exNet n [3] [2, 1] true s' := (C82_possible (split := true) (N := exNet) (fun d => d) exRank (req := [3])
    (fun _ _ => trivial) [2, 1]).1

/-- Retrieving the object 1 by its chunks, of which the target already has 10. -/
theorem ex_chunks : Parallel exNet true 2 [1] [10] [] true [10, 11, 1] [1] := by
  refine .inr ⟨[1], [1], by simp, ⟨by simp, by simp, by simp⟩, .inr ⟨[], ⟨?_, by simp⟩, .inr ⟨[10], [], [true], ?_, ?_, ?_⟩⟩⟩
  · intro d hd ht
    rw [List.mem_singleton.1 hd] at ht
    rcases ht with h | h <;> cases h
  · exact .inl ⟨by simp, rfl, rfl, rfl⟩
  · refine .step (a := []) (b := []) (.chunks rfl) (.step (a := []) (b := []) (.missing (m := [11]) ?_ ⟨by simp, ?_, ?_⟩)
      (.step (a := []) (b := []) (.fetch (r := [11]) ⟨by simp, fun _ _ _ => trivial, fun _ _ h => h⟩) ?_))
    · intro c hc
      have : c = 10 ∨ c = 11 := by simpa [exNet] using hc
      rcases this with rfl | rfl <;> (rintro (h | h) <;> cases h)
    · simp [exNet]
    · intro c hc hm
      have : c = 10 ∨ c = 11 := by simpa [exNet] using hc
      rcases this with rfl | rfl
      · simp
      · simp at hm
    · exact .step (a := []) (b := []) .stored (.step (a := []) (b := []) .next (.step (a := []) (b := [])
        (.spliced trivial (by simp [exNet])) .refl))
  · exact .inr ⟨by simp, rfl, rfl⟩

/-- Chunks are stored, too: `C82_only_partial` cannot leave them out. -/
example : ∃ d ∈ ([10, 11, 1] : List Nat), d ∉ ([10] : List Nat) ∧ ¬ Below exNet.sub [1] d := by
  refine ⟨11, by simp, by simp, fun h => ?_⟩
  have key : ∀ d, Below exNet.sub [1] d → d = 1 := by
    intro d h
    induction h with
    | root h => exact List.mem_singleton.1 h
    | step _ hk ih =>
      subst ih
      cases hk
  exact absurd (key 11 h) (by decide)

/-- The same storage, but reading trees may fail. -/
def exFlaky : Net Nat := { exNet with flaky := fun d => d = 2 ∨ d = 3 }

/-- **V54.** If a tree cannot be read when its entries are asked for, it is taken for empty. If the failure was transient, the
tree is then stored without its entry, and success is reported: the target, which was closed, no longer is. -/
theorem C82_violation_flaky : ∃ s' done', Parallel exFlaky false 2 [2] [] [] true s' done' ∧ Closed exSub ([] : List Nat) ∧
    ¬ Closed exSub s' ∧ 2 ∈ s' ∧ 1 ∉ s' ∧ exFlaky.honest := by
  refine ⟨[2], [2], .inr ⟨[2], [2], by simp, ⟨by simp, by simp, by simp⟩, .inr ⟨[], ⟨?_, by simp⟩, .inr ⟨[], [], [true], ?_, ?_, ?_⟩⟩⟩,
    by simp [Closed], ?_, by simp, by simp, trivial⟩
  · intro d hd _
    exact ⟨[], .failed (.inl (List.mem_singleton.1 hd)), by simp⟩
  · exact .inl ⟨by simp, rfl, rfl, rfl⟩
  · exact .step (a := []) (b := []) .plain (run_fetch [] [] (by simp) (fun _ _ => trivial) [])
  · exact .inr ⟨by simp, rfl, rfl⟩
  · intro h
    exact absurd (h 2 (by simp) 1 (by simp [exSub])) (by simp)

/-- The same for the variant without parallelism. -/
theorem C82_violation_flaky_sequential : ∃ s', Sequential exFlaky 2 [2] [] true s' ∧ ¬ Closed exSub s' ∧ 2 ∈ s' ∧ 1 ∉ s' := by
  refine ⟨[2], ⟨[2], ⟨by simp, by simp, by simp⟩, .inr ⟨[], .tree (.inl rfl) (.failed (.inl rfl)) ?_ .nil, ?_⟩⟩, ?_, by simp, by simp⟩
  · exact ⟨[], ⟨by simp, by simp, by simp⟩, .inr ⟨[], .nil, run_fetch [] [] (by simp) (by simp) []⟩⟩
  · exact run_fetch [] [] (by simp) (fun _ _ => trivial) []
  · intro h
    exact absurd (h 2 (by simp) 1 (by simp [exSub])) (by simp)

/-- The same storage, but data need not be what was asked for. -/
def exWrong : Net Nat := { exNet with honest := False }

/-- **V55.** Blobs are only counted: if the data received for the object 1 is another one, success is reported although the
object is not there. -/
theorem C82_violation_wrong : ∃ s', Sequential exWrong 1 [1] [] true s' ∧ 1 ∉ s' ∧ ∀ d, exWrong.given d := by
  refine ⟨[5], ⟨[1], ⟨by simp, by simp, by simp⟩, .inr ⟨[], .blob (fun h => ?_) .nil, ?_⟩⟩, by simp, fun _ => trivial⟩
  · rcases h with h | h <;> cases h
  · refine .step (a := []) (b := []) (.fetch (r := [5]) ⟨by simp, fun _ _ _ => trivial, fun h => h.elim⟩) ?_
    exact .step (a := []) (b := []) .stored (.step (a := []) (b := []) .right .refl)

end Verif.Remote.Download
