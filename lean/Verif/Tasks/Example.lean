import Verif.Tasks.Live

/-!
# The task system: examples

A scheduler choosing steps, to get states that are known to be reachable.
-/

namespace Verif.Tasks.Example

open Verif.Tasks

/-- What a worker may do next. -/
def workNext (n : Nat) (s : State Nat) (k : Nat) : PC Nat → Option (PC Nat × Eff Nat)
  | .top => if s.down = true then some (.exit, {}) else some (.scan 0, {})
  | .scan i =>
    if i < n then
      if s.lock ((k + i) % n) = false then
        match s.queue ((k + i) % n) with
        | t :: _ => some (.popped ((k + i) % n) t, { acquire := some ((k + i) % n), drop := some ((k + i) % n) })
        | [] => some (.scan (i + 1), {})
      else some (.scan (i + 1), {})
    else if i = n then some (.pop, {}) else none
  | .pop =>
    if s.lock k = false then
      if s.queue k ≠ [] ∨ s.qdone k = true then some (.take, { acquire := some k })
      else some (.idle, { acquire := some k })
    else none
  | .idle => some (.asleep, { count := -1 })
  | .asleep => some (.wait false, { release := some k })
  | .wait true =>
    if s.lock k = false then
      if s.queue k ≠ [] ∨ s.qdone k = true then some (.woken, { acquire := some k })
      else some (.wait false, {})
    else none
  | .woken => some (.take, { count := 1 })
  | .take =>
    match s.queue k with
    | t :: _ => some (.popped k t, { drop := some k })
    | [] => some (.exit, { release := some k })
  | .popped j t => some (.unlock j t, { count := -1 })
  | .unlock j t => some (.have t, { release := some j })
  | .have t => if s.down = true then some (.exit, { log := [.dropped t] })
      else some (.run t .none, { log := [.started t] })
  | .run t .none => some (.top, { log := [.finished t] })
  | _ => none

theorem workNext_sound {n : Nat} {s : State Nat} {k : Nat} {p p' : PC Nat} {e : Eff Nat}
    (h : workNext n s k p = some (p', e)) : WorkStep n s k false p p' e := by
  have hf : ∀ x : Bool, ¬ x = true → x = false := by intro x; cases x <;> simp
  unfold workNext at h
  split at h
  · split at h <;> cases h
    · exact .loopEnd (by assumption)
    · exact .loop (hf _ (by assumption))
  · split at h
    · split at h
      · split at h <;> cases h
        · rename_i hq; exact .scanTake _ _ _ (by assumption) (by assumption) hq
        · exact .scanNext _ (by assumption)
      · cases h; exact .scanNext _ (by assumption)
    · split at h <;> cases h
      rename_i hi
      subst hi
      exact .scanEnd
  · split at h
    · split at h <;> cases h
      · exact .popTake (by assumption) (by assumption)
      · rename_i hl hq
        exact .popIdle hl (by by_contra h; exact hq (.inl h)) (hf _ (fun h => hq (.inr h)))
    · cases h
  · cases h; exact .idle
  · cases h; exact .asleep
  · split at h
    · split at h <;> cases h
      · exact .wake true (by assumption) (by assumption)
      · rename_i hl hq
        exact .wakeAgain true hl (by by_contra h; exact hq (.inl h)) (hf _ (fun h => hq (.inr h)))
    · cases h
  · cases h; exact .woken
  · split at h <;> cases h
    · rename_i hq; exact .take _ _ hq
    · exact .takeEnd (by assumption)
  · cases h; exact .popped _ _
  · cases h; exact .unlock _ _
  · split at h <;> cases h
    · exact .leave _ (by assumption)
    · exact .start _ (hf _ (by assumption))
  · cases h; exact .finish _
  · cases h

/-- What a call may do next. -/
def callNext (n : Nat) (s : State Nat) : Call Nat → Option (Call Nat × Eff Nat)
  | .locked j u => some (.lockedInc j u, { count := 1 })
  | .lockedInc j u => some (.notify j, { release := some j, push := some (j, u), log := [.pushed u] })
  | .plain j u => some (.plainInc j u, { count := 1 })
  | .plainInc j u => if s.lock j = false then some (.notify j, { push := some (j, u), log := [.pushed u] }) else none
  | .notify j => some (.none, { notify := some j })
  | .shutFlag => some (.shutAbort, { down := true })
  | .shutAbort => some (.shutQueue 0, { abort := true })
  | .shutQueue j =>
    if j < n then (if s.lock j = false then some (.shutNotify j, { qdone := some j }) else none)
    else if j = n then some (.none, {}) else none
  | .shutNotify j => some (.shutQueue (j + 1), { notify := some j })
  | .none => none

theorem callNext_sound {n : Nat} {s : State Nat} {c c' : Call Nat} {e : Eff Nat}
    (h : callNext n s c = some (c', e)) : CallStep n s c c' e := by
  unfold callNext at h
  split at h
  · cases h; exact .tryPushInc _ _
  · cases h; exact .tryPushAdd _ _
  · cases h; exact .pushInc _ _
  · split at h <;> cases h
    exact .pushAdd _ _ (by assumption)
  · cases h; exact .notify _
  · cases h; exact .shutFlag
  · cases h; exact .shutAbort
  · split at h
    · split at h <;> cases h
      exact .shutQueue _ (by assumption) (by assumption)
    · split at h <;> cases h
      rename_i hj
      subst hj
      exact .shutEnd
  · cases h; exact .shutNotify _
  · cases h

/-- What the client may do while waiting. -/
def clientNext (s : State Nat) : PC Nat → Option (PC Nat × Eff Nat)
  | .client .none => some (.finCheck, {})
  | .finCheck => if s.count = 0 ∨ s.aborted = true then some (.returned, {}) else some (.finLock, {})
  | .finLock => if s.count = 0 ∨ s.aborted = true then some (.finCheck, {}) else some (.finWait false, {})
  | .finWait true => some (.finLock, {})
  | _ => none

theorem clientNext_sound {s : State Nat} {p p' : PC Nat} {e : Eff Nat}
    (h : clientNext s p = some (p', e)) : ClientStep s false p p' e := by
  unfold clientNext at h
  split at h
  · cases h; exact .finish
  · split at h <;> cases h
    · exact .checkTrue (by assumption)
    · exact .checkFalse (by assumption)
  · split at h <;> cases h
    · exact .lockTrue (by assumption)
    · exact .lockFalse (by assumption)
  · cases h; exact .wake true
  · cases h

inductive Choice where
  | work (k : Nat)
  | call (k : Nat)
  /-- start queueing a task -/
  | queue (k j u : Nat)
  | shut (k : Nat)
  | client

def choose (n : Nat) (s : State Nat) : Choice → Option (State Nat)
  | .work k => if k < n then (workNext n s k (s.pc k)).map fun r => s.apply n k r.1 r.2 else none
  | .call k => if k ≤ n then (s.pc k).call.bind fun c => (callNext n s c).map fun r =>
      s.apply n k ((s.pc k).withCall r.1) r.2 else none
  | .queue k j u => if k ≤ n ∧ j < n ∧ (s.pc k).call = some .none ∧ s.lock j = false then
      some (s.apply n k ((s.pc k).withCall (.locked j u)) { acquire := some j }) else none
  | .shut k => if k ≤ n ∧ (s.pc k).call = some .none then some (s.apply n k ((s.pc k).withCall .shutFlag) {}) else none
  | .client => (clientNext s (s.pc n)).map fun r => s.apply n n r.1 r.2

theorem choose_sound {n : Nat} {s s' : State Nat} {c : Choice} (h : choose n s c = some s') : Step n s false s' := by
  cases c with
  | work k =>
    simp only [choose] at h
    split at h
    · rw [Option.map_eq_some_iff] at h
      obtain ⟨⟨p', e⟩, h1, rfl⟩ := h
      exact .work k false p' e (by assumption) (workNext_sound h1)
    · cases h
  | call k =>
    simp only [choose] at h
    split at h
    · rw [Option.bind_eq_some_iff] at h
      obtain ⟨c, hc, h⟩ := h
      rw [Option.map_eq_some_iff] at h
      obtain ⟨⟨c', e⟩, h1, rfl⟩ := h
      exact .call k c c' e (by assumption) hc (callNext_sound h1)
    · cases h
  | queue k j u =>
    simp only [choose] at h
    split at h
    · rename_i hh
      cases h
      exact .call k _ _ _ hh.1 hh.2.2.1 (.tryPush j u hh.2.1 hh.2.2.2)
    · cases h
  | shut k =>
    simp only [choose] at h
    split at h
    · rename_i hh
      cases h
      exact .call k _ _ _ hh.1 hh.2 .shutdown
    · cases h
  | client =>
    simp only [choose] at h
    rw [Option.map_eq_some_iff] at h
    obtain ⟨⟨p', e⟩, h1, rfl⟩ := h
    exact .client false p' e (clientNext_sound h1)

/-- Choices that cannot be done are skipped. -/
def runAll (n : Nat) (s : State Nat) : List Choice → State Nat
  | [] => s
  | c :: cs => runAll n ((choose n s c).getD s) cs

theorem runAll_reachable {n : Nat} (cs : List Choice) {s : State Nat} (h : Reachable n s) :
    Reachable n (runAll n s cs) := by
  induction cs generalizing s with
  | nil => exact h
  | cons c cs ih =>
    show Reachable n (runAll n ((choose n s c).getD s) cs)
    apply ih
    cases hc : choose n s c with
    | none => exact h
    | some s' => exact .step h (choose_sound hc)

/-- The client queues task 1; a worker takes it and queues task 2 while running it; all get to run; the client waits. -/
@[irreducible] def script : List Choice :=
  [.queue 2 1 1, .call 2, .call 2, .call 2, .client, .client, .client] ++
  (List.replicate 6 (.work 0)) ++ [.queue 0 1 2, .call 0, .call 0, .call 0] ++ List.replicate 12 (.work 1) ++
  List.replicate 20 (.work 0) ++ List.replicate 20 (.work 1) ++ [.client, .client]

def before : State Nat := runAll 2 (start 2) script

theorem before_reachable : Reachable 2 before := runAll_reachable script .start

def after : State Nat := before.apply 2 2 .returned {}

theorem before_facts : before.pc 2 = .finCheck ∧ before.count = 0 ∧ before.aborted = false ∧
    before.log.count (.finished 1) = 1 ∧ before.log.count (.finished 2) = 1 := by
  unfold before script; decide +kernel

theorem before_step : Step 2 before false after :=
  .client false .returned {} (by rw [before_facts.1]; exact .checkTrue (.inl before_facts.2.1))

/-- The hypotheses of `C28_finish_partial` are met, with two tasks that have run. -/
example : Idle 2 after ∧ ∀ t, after.log.count (.pushed t) = after.log.count (.started t) ∧
    after.log.count (.started t) = after.log.count (.finished t) :=
  C28_finish_partial before_reachable before_step (by rw [before_facts.1]; exact fun h => by cases h)
    (by unfold after before script; decide +kernel) before_facts.2.2.1

example : after.log = before.log ∧ ∀ s'', During 2 after s'' → Idle 2 s'' ∧ s''.log = after.log :=
  ⟨rfl, fun _ hd => C28_stays_finished_partial before_reachable before_step
    (by rw [before_facts.1]; exact fun h => by cases h)
    (by unfold after before script; decide +kernel) before_facts.2.2.1 hd⟩

/-- A worker wakes up without reason after `Finish` has returned. -/
example : ∃ s'', During 2 after s'' ∧ ∃ s3, Step 2 s'' true s3 :=
  ⟨after, .refl _, _, .work 0 true (.wait false) {} (by decide) (by
    have h : after.pc 0 = .wait false := by unfold after before script; decide +kernel
    rw [h]
    exact .wakeAgain false (by unfold after before script; decide +kernel)
      (by unfold after before script; decide +kernel) (by unfold after before script; decide +kernel))⟩

/-- The client sleeps while a worker is running: the situation of `C28_progress`. -/
example : Waiting 2 (runAll 2 (start 2) (script.take 13)) ∧
    (runAll 2 (start 2) (script.take 13)).pc 2 = .finWait false ∧
    (runAll 2 (start 2) (script.take 13)).pc 0 = .run 1 .none ∧
    ∃ s', Step 2 (runAll 2 (start 2) (script.take 13)) false s' := by
  have h : (runAll 2 (start 2) (script.take 13)).pc 2 = .finWait false := by unfold script; decide +kernel
  exact ⟨.inr (.inr ⟨_, h⟩), h, by unfold script; decide +kernel,
    C28_progress (runAll_reachable _ .start) (.inr (.inr ⟨_, h⟩))⟩

/-- Once the workers are idle, the client returns. -/
example : ∃ s', ClientSteps 2 before s' ∧ s'.pc 2 = .returned ∧ s'.log = before.log :=
  C28_returns before_reachable
    (idle_of_zero (inv before_reachable) before_facts.2.1 (by unfold before script; decide +kernel))
    (.inl before_facts.1)

/-- `C28_once`, in a state where both tasks have been queued and one has been started. -/
example : (runAll 2 (start 2) (script.take 17)).log.count (.pushed 2) = 1 ∧
    (runAll 2 (start 2) (script.take 17)).log.count (.started 2) = 0 ∧
    (runAll 2 (start 2) (script.take 17)).queuedOf 2 2 = 1 := by
  refine ⟨?_, ?_, ?_⟩ <;> (unfold script; decide +kernel)

/-! ## Shutdown -/

/-- While a task is running, another task asks for shutdown. -/
@[irreducible] def shutScript : List Choice :=
  [.queue 2 0 1, .call 2, .call 2, .call 2, .queue 2 1 2, .call 2, .call 2, .call 2, .client, .client, .client] ++
  List.replicate 5 (.work 0) ++ List.replicate 5 (.work 1) ++
  [.shut 0, .call 0, .call 0, .client, .client, .client]

/-- **C28**: After shutdown, waiting for the task system to finish may return while tasks are still running (the destructor
waits for the threads, see `C28_shutdown_ends`). -/
theorem C28_shutdown_returns_early : ∃ s : State Nat, Reachable 2 s ∧ s.pc 2 = .returned ∧ s.pc 1 = .run 2 .none :=
  ⟨runAll 2 (start 2) shutScript, runAll_reachable _ .start, by unfold shutScript; decide +kernel,
    by unfold shutScript; decide +kernel⟩

/-- The end of shutting down: all workers are gone, and a third task was dropped. -/
@[irreducible] def endScript : List Choice :=
  shutScript ++ [.queue 1 1 3, .call 1, .call 1, .call 1] ++ List.replicate 10 (.call 0) ++
  List.replicate 10 (.work 0) ++ List.replicate 10 (.work 1)

example : (runAll 2 (start 2) endScript).down = true ∧ (runAll 2 (start 2) endScript).pc 0 = .exit ∧
    (runAll 2 (start 2) endScript).pc 1 = .exit ∧ (runAll 2 (start 2) endScript).queue 1 = [3] := by
  refine ⟨?_, ?_, ?_, ?_⟩ <;> (unfold endScript shutScript; decide +kernel)

end Verif.Tasks.Example
