import Verif.Async.Props

/-!
# The asynchronous map: runs
-/

namespace Verif.Async

variable {K V : Type} [DecidableEq K]

/-- The first item goes on, up to `n` times. -/
def drain : Nat → State K V → State K V
  | 0, s => s
  | n + 1, ⟨s, []⟩ => drain n ⟨s, []⟩
  | n + 1, ⟨s, x :: post⟩ => drain n ⟨(exec x s).core, (exec x s).items ++ post⟩

theorem steps_trans {s t u : State K V} (h : Steps s t) (h' : Steps t u) : Steps s u := by
  induction h' with
  | refl => exact h
  | tail _ hs ih => exact .tail ih hs

theorem drain_steps (n : Nat) (s : State K V) : Steps s (drain n s) := by
  induction n generalizing s with
  | zero => exact .refl s
  | succ n ih =>
    obtain ⟨s, pool⟩ := s
    cases pool with
    | nil => exact ih _
    | cons x post => exact steps_trans (.tail (.refl _) (.op s [] post x)) (ih _)

/-- What is done from outside. -/
inductive Act (K V : Type) where
  | set (k : K) (v : V)
  | fatal (k : K)
  | call (r : Call K)
  /-- let the items go on -/
  | run (n : Nat)

def hasCreated (k : K) (s : Core K V) : Bool := s.log.any (isCreated k)

theorem hasCreated_mem {k : K} {s : Core K V} (h : hasCreated k s = true) : Event.created k ∈ s.log := by
  obtain ⟨e, he, hp⟩ := List.any_eq_true.mp h
  cases e with
  | created k' =>
    have : k' = k := by simpa [isCreated] using hp
    subst this; exact he
  | _ => simp [isCreated] at hp

/-- Doing it, if it can be done. -/
def act : Act K V → State K V → State K V
  | .set k v, s => if hasCreated k s.core = true then
      ⟨{ s.core with log := .setterCalled k v :: s.core.log }, .set k v :: s.pool⟩ else s
  | .fatal k, s => if hasCreated k s.core = true then
      ⟨{ s.core with log := .fatalCalled k :: s.core.log }, .failNode k :: s.pool⟩ else s
  | .call r, s => if (r.owner.isNone || (r.owner.any fun o => hasCreated o s.core) && r.handler) = true then
      ⟨{ s.core with calls := s.core.calls ++ [r] },
        (if r.keys = [] then .consume s.core.calls.length else .ensure s.core.calls.length 0) :: s.pool⟩ else s
  | .run n, s => drain n s

theorem act_steps (a : Act K V) (s : State K V) : Steps s (act a s) := by
  cases a with
  | set k v =>
    simp only [act]
    split
    · rename_i h; exact .tail (.refl s) (.setter s.core s.pool k v (hasCreated_mem h))
    · exact .refl s
  | fatal k =>
    simp only [act]
    split
    · rename_i h; exact .tail (.refl s) (.fatal s.core s.pool k (hasCreated_mem h))
    · exact .refl s
  | call r =>
    simp only [act]
    split
    · rename_i h
      refine .tail (.refl s) (.call s.core s.pool r ?_)
      intro o ho
      rw [ho] at h
      have h' : hasCreated o s.core = true ∧ r.handler = true := by simpa using h
      exact ⟨hasCreated_mem h'.1, h'.2⟩
    · exact .refl s
  | run n => exact drain_steps n s

def script (as : List (Act K V)) (s : State K V) : State K V := as.foldl (fun s a => act a s) s

theorem script_steps (as : List (Act K V)) (s : State K V) : Steps s (script as s) := by
  induction as generalizing s with
  | nil => exact .refl s
  | cons a as ih => exact steps_trans (act_steps a s) (ih _)

theorem script_reachable (as : List (Act K V)) : Reachable (script as (start : State K V)) :=
  steps_reachable .start (script_steps as start)

/-! ## A key listed twice -/

abbrev twice : State Nat Nat :=
  script [.call ⟨none, [1, 2, 1], true⟩, .run 50, .set 2 20, .set 1 10, .run 50] start

example : twice.pool = [] ∧ Event.consumed 0 [10, 20, 10] ∈ twice.core.log := by decide +kernel

example : ∃ r, twice.core.calls[0]? = some r ∧ (∀ k ∈ r.keys, twice.core.ready k = true) ∧
    List.Forall₂ (fun k v => Event.setterCalled k v ∈ twice.core.log) r.keys [10, 20, 10] :=
  C26_ready (script_reachable _) (c := 0) (by decide +kernel)

example : twice.core.log.countP (isConsumed 0) = 1 :=
  C26_all_ready (script_reachable _) (by decide +kernel) (c := 0) (r := ⟨none, [1, 2, 1], true⟩) (by decide +kernel)
    (by decide +kernel)

example : twice.core.log.countP (isCreated 1) = 1 :=
  (C25_requested (script_reachable _) (by decide +kernel) 1).mpr ⟨0, ⟨none, [1, 2, 1], true⟩, by decide +kernel, by decide⟩

example : (script [.call ⟨none, [2], true⟩, .run 50] twice).core.value 1 = some 10 :=
  C25_value_partial (script_reachable _) (script_steps _ twice) (k := 1) (v := 10) (by decide +kernel) (by decide +kernel)

/-! ## Failures are passed on -/

abbrev failing : State Nat Nat :=
  script [.call ⟨none, [3, 1], true⟩, .run 50, .set 3 30, .call ⟨some 1, [2], true⟩, .run 50, .fatal 2, .run 50] start

example : failing.pool = [] ∧ failing.core.failed 2 = true ∧ failing.core.failed 1 = true ∧
    failing.core.failed 3 = false ∧ failing.core.log.countP (isConsumed 0) = 0 := by decide +kernel

example : failing.core.log.countP (isHandled 0) = 1 :=
  C26_some_failed_partial (script_reachable _) (by decide +kernel) (c := 0) (r := ⟨none, [3, 1], true⟩) (by decide +kernel)
    rfl (by decide +kernel) (by decide +kernel)

example : failing.core.ready 1 = true ∨ failing.core.failed 1 = true :=
  C26_passed_on (script_reachable _) (by decide +kernel) (c := 1) (r := ⟨some 1, [2], true⟩) (by decide +kernel)
    rfl (by decide +kernel) (by decide +kernel)

/-! ## A cycle -/

abbrev stuck : State Nat Nat :=
  script [.call ⟨none, [1], true⟩, .run 50, .call ⟨some 1, [2], true⟩, .run 50, .call ⟨some 2, [1], true⟩, .run 50] start

example : stuck.pool = [] ∧ stuck.core.log = [.created 2, .created 1] := by decide +kernel

theorem stuck_reports : detectCycle 0 (pendingRequests stuck.core) = .cycle [1, 2, 1] := by decide +kernel

theorem stuck_stalled (k : Nat) : Stalled stuck.core k → k = 1 ∨ k = 2 := by
  intro h
  have h1 : Event.created k ∈ ([.created 2, .created 1] : List (Event Nat Nat)) := by
    have : stuck.core.log = [.created 2, .created 1] := by decide +kernel
    rw [← this]; exact h.1
  simp at h1
  omega

example : ∃ cycle, detectCycle 0 (pendingRequests stuck.core) = .cycle cycle := by
  refine C27_deadlock (script_reachable _) (by decide +kernel) 0 ⟨1, ?_⟩ ?_
  · exact ⟨by decide +kernel, by decide +kernel, by decide +kernel⟩
  · intro k hk
    rcases stuck_stalled k hk with rfl | rfl
    · exact ⟨1, ⟨some 1, [2], true⟩, by decide +kernel, rfl, by decide +kernel⟩
    · exact ⟨2, ⟨some 2, [1], true⟩, by decide +kernel, rfl, by decide +kernel⟩

/-! ## What does not hold -/

/-- **C25** does not hold if a setter is called twice: the value changes, although consumers may have read the former one. -/
theorem C25_overwritten : ¬ ∀ (s s' : State Nat Nat) (k v : Nat), Reachable s → Steps s s' → s.core.value k = some v →
    s'.core.value k = some v := by
  intro h
  have := h twice (script [.set 1 11, .run 50] twice) 1 10 (script_reachable _) (script_steps _ twice)
    (by decide +kernel)
  exact absurd this (by decide +kernel)

/-- A call for two keys, the second of which fails. -/
abbrev unnoticed : State Nat Nat :=
  script [.call ⟨none, [1, 2], true⟩, .run 50, .fatal 2, .run 50] start

/-- **C26** does not hold for a call waiting for an earlier key: nothing is going on, a key has failed, and the failure
function was not called. -/
theorem C26_failure_unnoticed : ¬ ∀ (s : State Nat Nat) (c : Nat) (r : Call Nat), Reachable s → s.pool = [] →
    s.core.calls[c]? = some r → r.handler = true → (∃ k ∈ r.keys, s.core.failed k = true) →
    s.core.log.countP (isHandled c) = 1 := by
  intro h
  have := h unnoticed 0 ⟨none, [1, 2], true⟩ (script_reachable _) (by decide +kernel) (by decide +kernel) rfl
    (by decide +kernel)
  exact absurd this (by decide +kernel)

/-- A call about to test whether key 1 is ready, and the setter of key 1 about to write its value. -/
abbrev racing : State Nat Nat :=
  script [.call ⟨none, [1], true⟩, .run 50, .call ⟨none, [1], false⟩, .run 2, .set 1 10] start

/-- **C26** relies on more than the language grants: the value of a node can be written, under the lock, while another
thread tests, without the lock, whether it is there; the member is not atomic. -/
theorem C26_race : ∃ (s : State Nat Nat) (k v c p : Nat), Reachable s ∧ Item.set k v ∈ s.pool ∧ s.core.failed k = false ∧
    Item.waitCheck c p ∈ s.pool ∧ s.core.keyAt c p = some k :=
  ⟨racing, 1, 10, 1, 0, script_reachable _, by decide +kernel, by decide +kernel, by decide +kernel, by decide +kernel⟩

end Verif.Async
