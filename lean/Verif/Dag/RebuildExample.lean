import Verif.Dag.RebuildProps
import Verif.Dag.ExecutorExample

/-!
# Examples of rebuilds, and a violation: C105

The build of `Verif.Dag.ExecutorExample`: action 10 makes a file and a directory, a tree action collects them.
-/

namespace Verif.Dag.Rebuild

open Verif.Dig (ObjectType)
open Verif.Remote.Upload
open Verif.Dag.Executor hiding Ran

variable {Art Act δ : Type} [DecidableEq Art] [DecidableEq Act] [DecidableEq δ]

/-- A rebuild following a given log, where the same service and the same cache are used each time. -/
def replayed (W : World Art δ) (P : Plan Art Act δ) (noCache : Act → Bool) (V : Act → Service δ)
    (k : Act → δ → Option (Hit δ)) (n : Nat) (s₀ : List δ) : List (Event Art Act) → Option (Ex Art δ × Report Act δ)
  | [] => some (⟨givenInfo P, s₀⟩, .empty)
  | .started _ :: l => replayed W P noCache V k n s₀ l
  | .available _ :: l => replayed W P noCache V k n s₀ l
  | .finished (.art a) ok :: l =>
    match replayed W P noCache V k n s₀ l with
    | none => none
    | some (x, R) =>
      match processArt W P n a x with
      | .fine ok' x' => if ok' = ok then some (x', R) else none
      | _ => none
  | .finished (.act c) ok :: l =>
    match replayed W P noCache V k n s₀ l with
    | none => none
    | some (x, R) =>
      match rebuildAct W P noCache (V c) (k c) n c x R with
      | (.fine ok' x', R') => if ok' = ok then some (x', R') else none
      | _ => none

omit [DecidableEq Act] in
theorem replayed_ran {kids : δ → List δ} {W : World Art δ} {P : Plan Art Act δ} {noCache : Act → Bool}
    {V : Act → Service δ} {k : Act → δ → Option (Hit δ)} {n : Nat} {s₀ : List δ} :
    ∀ {l : List (Event Art Act)} {x : Ex Art δ} {R : Report Act δ}, replayed W P noCache V k n s₀ l = some (x, R) →
    Ran kids W P noCache (fun c v => v = V c) (fun c r a => a = k c r) s₀ l x R
  | [], x, R, h => by
    injection h with h
    injection h with h1 h2
    subst h1 h2
    exact .start
  | .started m :: l, x, R, h => .started m (replayed_ran (l := l) h)
  | .available a :: l, x, R, h => .available a (replayed_ran (l := l) h)
  | .finished (.art a) ok :: l, x, R, h => by
    rw [replayed] at h
    cases hr : replayed W P noCache V k n s₀ l with
    | none => rw [hr] at h; exact nomatch h
    | some y =>
      obtain ⟨y, Q⟩ := y
      rw [hr] at h
      simp only at h
      cases hp : processArt W P n a y with
      | ub => rw [hp] at h; exact nomatch h
      | more => rw [hp] at h; exact nomatch h
      | fine ok' x' =>
        rw [hp] at h
        simp only at h
        by_cases e : ok' = ok
        · rw [if_pos e] at h
          injection h with h
          injection h with h1 h2
          subst h1 h2 e
          exact .art n (replayed_ran hr) hp
        · rw [if_neg e] at h; exact nomatch h
  | .finished (.act c) ok :: l, x, R, h => by
    rw [replayed] at h
    cases hr : replayed W P noCache V k n s₀ l with
    | none => rw [hr] at h; exact nomatch h
    | some y =>
      obtain ⟨y, Q⟩ := y
      rw [hr] at h
      simp only at h
      obtain ⟨o, Q', hp⟩ : ∃ o Q', rebuildAct W P noCache (V c) (k c) n c y Q = (o, Q') := ⟨_, _, rfl⟩
      cases o with
      | ub => rw [hp] at h; exact nomatch h
      | more => rw [hp] at h; exact nomatch h
      | fine ok' x' =>
        rw [hp] at h
        simp only at h
        by_cases e : ok' = ok
        · rw [if_pos e] at h
          injection h with h
          injection h with h1 h2
          subst h1 h2 e
          exact .act n (V c) (k c) (replayed_ran hr) rfl (fun _ => rfl) hp
        · rw [if_neg e] at h; exact nomatch h

namespace Example

open Verif.Dag.Example
open Verif.Dag.Executor.Example

/-- The cache has the same objects. -/
def good (_ r : Nat) : Option (Hit Nat) := if r = 60 then some (true, answer) else none

/-- The cache has another file. -/
def other (_ r : Nat) : Option (Hit Nat) :=
  if r = 60 then some (true, ⟨0, some [(['a'], 9, .file), (['b'], 50, .tree)]⟩) else none

/-- The rebuild, with a cache. -/
theorem rebuilt (k : Nat → Nat → Option (Hit Nat)) (R : Report Nat Nat)
    (h : (match replayed world plan (fun _ => false) (fun _ => service) k 5 [99] final.core.log with
      | some (x, Q) => decide (x.vals 4 = some ⟨70, .tree, false⟩ ∧ Q = R)
      | none => false) = true) :
    ∃ x, Ran kids world plan (fun _ => false) (fun _ v => v = service) (fun c r a => a = k c r) [99] final.core.log x R ∧
      x.vals 4 = some ⟨70, .tree, false⟩ := by
  cases hr : replayed world plan (fun _ => false) (fun _ => service) k 5 [99] final.core.log with
  | none => rw [hr] at h; exact nomatch h
  | some x =>
    obtain ⟨x, Q⟩ := x
    rw [hr] at h
    obtain ⟨h1, rfl⟩ := of_decide_eq_true h
    exact ⟨x, replayed_ran hr, h1⟩

theorem rebuilt_good : ∃ x, Ran kids world plan (fun _ => false) (fun _ v => v = service) (fun c r a => a = good c r) [99]
    final.core.log x ⟨[], [], 1, 0, 0, 0⟩ ∧ x.vals 4 = some ⟨70, .tree, false⟩ :=
  rebuilt good _ (by rw [final_log]; decide +kernel)

theorem rebuilt_other : ∃ x, Ran kids world plan (fun _ => false) (fun _ v => v = service) (fun c r a => a = other c r)
    [99] final.core.log x ⟨[⟨10, ['a'], (8, .file), (9, .file)⟩], [], 1, 0, 1, 0⟩ ∧
    x.vals 4 = some ⟨70, .tree, false⟩ :=
  rebuilt other _ (by rw [final_log]; decide +kernel)

theorem rebuilt_none : ∃ x, Ran kids world plan (fun _ => false) (fun _ v => v = service) (fun _ _ a => a = none)
    [99] final.core.log x ⟨[], [10], 0, 1, 0, 0⟩ ∧ x.vals 4 = some ⟨70, .tree, false⟩ :=
  rebuilt (fun _ _ => none) _ (by rw [final_log]; decide +kernel)

/-- C105 applies: nothing is reported about the action, so the cache has the same objects. -/
example : ∃ x : Ex Nat Nat, Explained world plan
    (fun c r q => runs c r q ∧ ((⟨[], [], 1, 0, 0, 0⟩ : Report Nat Nat).Silent c →
      Confirmed (fun c r a => a = good c r) c r q)) x.vals 10 := by
  obtain ⟨x, hx, -⟩ := rebuilt_good
  have c1 : Cone graph [4] (.act 20) := .builder (.target (t := 4) (by simp)) (by decide)
  have c2 : Cone graph [4] (.art 2) := .dep c1 (by decide)
  exact ⟨x, (C105_rebuild graph_ok graph_acyclic plan_fits world_ok services closed_start final_reach final_quiet
    final_ok hx).2.2 10 (.builder c2 (by decide))⟩

/-- The output that is reported to differ does. -/
example : ∃ q b : Reply Nat, runs 10 60 q ∧ other 10 60 = some (true, b) ∧ q.outs ≠ b.outs := by
  obtain ⟨x, hx, -⟩ := rebuilt_other
  obtain ⟨r, q, b, l, m, h1, h2, h3, h4, h5, h6, h7⟩ := (C105_sound graph_ok plan_fits world_ok services closed_start
    final_reach hx).1 ⟨10, ['a'], (8, .file), (9, .file)⟩ (by simp)
  have hr : r = 60 := h1.1
  subst hr
  refine ⟨q, b, h1, h2.symm, fun e => ?_⟩
  simp only [other, if_true] at h2
  injection h2 with h2
  injection h2 with _ h2
  subst h2
  rw [h1.2] at e
  revert e
  decide

example : ∃ (x : Ex Nat Nat) (R : Report Nat Nat), Ran kids world plan (fun _ => false) (fun _ v => v = service)
    (fun _ _ a => a = none) [99] final.core.log x R ∧ R.missing = 1 ∧ R.missing = R.misses.length := by
  obtain ⟨x, hx, -⟩ := rebuilt_none
  exact ⟨x, _, hx, rfl, (C105_counted hx).1⟩

/-- The services of a build from the cache. -/
theorem cached_services : ∀ c V, V = service →
    Honest kids (fun r q => some (true, q) = good c r) V ∧ Reliable V := by
  rintro c V rfl
  obtain ⟨h1, h2⟩ := service_honest c
  refine ⟨⟨h1.grows, fun r s q hc hr h => ?_, h1.there, h1.back⟩, h2⟩
  obtain ⟨rfl, rfl⟩ := h1.runs r s q hc hr h
  rfl

/-- The rebuild agrees with a build from the cache. -/
example : ∃ x x' : Ex Nat Nat, x.vals 4 = x'.vals 4 ∧ x.vals 4 = some ⟨70, .tree, false⟩ := by
  obtain ⟨x, hx, h4⟩ := rebuilt_good
  obtain ⟨x', hx', -⟩ := built
  exact ⟨x, x', (C105_found graph_ok graph_acyclic plan_fits world_ok world_ok services cached_services closed_start
    closed_start rfl (fun _ _ => rfl) rfl (fun c r b b' h h' => by
      rw [← h'] at h
      injection h with h
      injection h) final_reach final_quiet final_ok hx final_reach final_quiet final_ok hx'
    (.target (by simp)) (.target (by simp)) (fun c _ => ⟨List.not_mem_nil, fun d hd => (nomatch hd)⟩)).2
    (fun c _ => rfl), h4⟩

/-! ## An action that fails the second time -/

/-- Action 10 may fail. -/
def lax : Plan Nat Nat Nat := { plan with mayFail := fun c => decide (c = 10) }

/-- It writes the same outputs, but fails. -/
def failing : Service Nat :=
  ⟨fun r s => if r = 60 then (some ⟨1, answer.outs⟩, s ++ [8, 51, 50]) else (none, s), none⟩

/-- V95: the exit code is not compared. An action that may fail is in the cache with exit code zero; executed again it
fails, with the same outputs. The rebuild reports nothing, though the artifacts are now marked as failed, and those of
a build from the cache are not. -/
theorem C105_violation_exit : ∃ x x', Ran kids world lax (fun _ => false) (fun _ v => v = failing)
      (fun c r a => a = good c r) [99] final.core.log x ⟨[], [], 1, 0, 0, 0⟩ ∧
    Executor.Ran kids world lax (fun _ v => v = service) [99] final.core.log x' ∧
    x.vals 4 = some ⟨70, .tree, true⟩ ∧ x'.vals 4 = some ⟨70, .tree, false⟩ := by
  have h : (match replayed world lax (fun _ => false) (fun _ => failing) good 5 [99] final.core.log with
    | some (x, Q) => decide (x.vals 4 = some ⟨70, .tree, true⟩ ∧ Q = ⟨[], [], 1, 0, 0, 0⟩)
    | none => false) = true := by
    rw [final_log]
    decide +kernel
  have h' : (match replay world lax (fun _ => service) 5 [99] final.core.log with
    | some x => decide (x.vals 4 = some ⟨70, .tree, false⟩)
    | none => false) = true := by
    rw [final_log]
    decide +kernel
  cases hr : replayed world lax (fun _ => false) (fun _ => failing) good 5 [99] final.core.log with
  | none => rw [hr] at h; exact nomatch h
  | some x =>
    obtain ⟨x, Q⟩ := x
    rw [hr] at h
    obtain ⟨h1, rfl⟩ := of_decide_eq_true h
    cases hr' : replay world lax (fun _ => service) 5 [99] final.core.log with
    | none => rw [hr'] at h'; exact nomatch h'
    | some x' =>
      rw [hr'] at h'
      exact ⟨x, x', replayed_ran hr, replay_ran hr', h1, of_decide_eq_true h'⟩

end Example
end Verif.Dag.Rebuild
