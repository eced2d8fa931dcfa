import Verif.Tasks.Props

/-!
# The task system: no deadlock
-/

namespace Verif.Tasks

variable {T : Type} [DecidableEq T]

/-- If no worker can do a step, all have ended or wait without having been notified. -/
theorem stuck {n : Nat} {s : State T} (hI : Inv n s) (hc : (s.pc n).call = none ∨ (s.pc n).call = some .none)
    (hno : ∀ k, k < n → ∀ p' e, ¬ Moves n s false k p' e) :
    ∀ k, k < n → s.pc k = .exit ∨ s.pc k = .wait false := by
  -- no lock is held
  have hfree : ∀ j, s.lock j = false := by
    intro j
    cases hl : s.lock j with
    | false => rfl
    | true =>
      exfalso
      have h1 := hI.lock j
      rw [if_pos hl] at h1
      obtain ⟨k, hk, h2⟩ : ∃ k, k < n + 1 ∧ (s.pc k).holds k j ≠ 0 := by
        by_contra h
        have h3 : ∀ k, k < n + 1 → (s.pc k).holds k j = 0 := by
          intro k hk
          by_contra h4
          exact h ⟨k, hk, h4⟩
        rw [sumN_eq_zero h3] at h1
        omega
      by_cases hkn : k = n
      · subst hkn
        have h3 := hI.kind k (Nat.le_refl k)
        rw [decide_eq_true rfl] at h3
        revert h2 h3 hc
        cases s.pc k <;> intro hc h2 h3 <;> simp_all [PC.isClient, PC.holds, PC.call, Call.holds]
      · have hk' : k < n := by omega
        have hw : ∀ p' e, ¬ WorkStep n s k false (s.pc k) p' e := fun p' e h => hno k hk' p' e (.work hk' h)
        have hcc : ∀ t c c' e, s.pc k = .run t c → ¬ CallStep n s c c' e := fun t c c' e hr h =>
          hno k hk' _ e (.call (by omega) (by rw [hr]; rfl) h)
        cases hp : s.pc k <;> rw [hp] at h2 hw <;> simp only [PC.holds, ne_eq, not_true_eq_false] at h2
        · exact hw _ _ .idle
        · exact hw _ _ .asleep
        · exact hw _ _ .woken
        · cases hq : s.queue k with
          | nil => exact hw _ _ (.takeEnd hq)
          | cons t q => exact hw _ _ (.take t q hq)
        · exact hw _ _ (.popped _ _)
        · exact hw _ _ (.unlock _ _)
        · rename_i t c
          cases c <;> simp only [Call.holds, not_true_eq_false] at h2
          · exact hcc _ _ _ _ hp (.tryPushInc _ _)
          · exact hcc _ _ _ _ hp (.tryPushAdd _ _)
        · have h3 := hI.kind k (by omega)
          rw [hp, decide_eq_false hkn] at h3
          cases h3
  intro k hk
  have hw : ∀ p' e, ¬ WorkStep n s k false (s.pc k) p' e := fun p' e h => hno k hk p' e (.work hk h)
  have hcc : ∀ t c c' e, s.pc k = .run t c → ¬ CallStep n s c c' e := fun t c c' e hr h =>
    hno k hk _ e (.call (by omega) (by rw [hr]; rfl) h)
  have hkind := hI.kind k (by omega)
  rw [decide_eq_false (by omega)] at hkind
  have hB := hI.inB k (by omega)
  cases hp : s.pc k <;> rw [hp] at hw hkind hB <;> simp only [PC.isClient, reduceCtorEq] at hkind
  · exfalso
    cases hd : s.down with
    | false => exact hw _ _ (.loop hd)
    | true => exact hw _ _ (.loopEnd hd)
  · rename_i i
    exfalso
    have hB' : i ≤ n := hB
    by_cases hi : i < n
    · exact hw _ _ (.scanNext i hi)
    · have : i = n := by omega
      subst this
      exact hw _ _ .scanEnd
  · exfalso
    by_cases hq : s.queue k ≠ [] ∨ s.qdone k = true
    · exact hw _ _ (.popTake (hfree k) hq)
    · have hq1 : s.queue k = [] := by
        by_contra h
        exact hq (.inl h)
      have hq2 : s.qdone k = false := by
        cases h : s.qdone k with
        | false => rfl
        | true => exact absurd (.inr h) hq
      exact hw _ _ (.popIdle (hfree k) hq1 hq2)
  · exact (hw _ _ .idle).elim
  · exact (hw _ _ .asleep).elim
  · rename_i b
    cases b with
    | false => exact .inr rfl
    | true =>
      exfalso
      by_cases hq : s.queue k ≠ [] ∨ s.qdone k = true
      · exact hw _ _ (.wake true (hfree k) hq)
      · have hq1 : s.queue k = [] := by
          by_contra h
          exact hq (.inl h)
        have hq2 : s.qdone k = false := by
          cases h : s.qdone k with
          | false => rfl
          | true => exact absurd (.inr h) hq
        exact hw _ _ (.wakeAgain true (hfree k) hq1 hq2)
  · exact (hw _ _ .woken).elim
  · exfalso
    cases hq : s.queue k with
    | nil => exact hw _ _ (.takeEnd hq)
    | cons t q => exact hw _ _ (.take t q hq)
  · exact (hw _ _ (.popped _ _)).elim
  · exact (hw _ _ (.unlock _ _)).elim
  · exfalso
    cases hd : s.down with
    | false => exact hw _ _ (.start _ hd)
    | true => exact hw _ _ (.leave _ hd)
  · rename_i t c
    exfalso
    cases c with
    | none => exact hw _ _ (.finish t)
    | locked j u => exact hcc _ _ _ _ hp (.tryPushInc _ _)
    | lockedInc j u => exact hcc _ _ _ _ hp (.tryPushAdd _ _)
    | plain j u => exact hcc _ _ _ _ hp (.pushInc _ _)
    | plainInc j u => exact hcc _ _ _ _ hp (.pushAdd _ _ (hfree j))
    | notify j => exact hcc _ _ _ _ hp (.notify _)
    | shutFlag => exact hcc _ _ _ _ hp .shutFlag
    | shutAbort => exact hcc _ _ _ _ hp .shutAbort
    | shutQueue j =>
      have hB' : j ≤ n := hB
      by_cases hj : j < n
      · exact hcc _ _ _ _ hp (.shutQueue j hj (hfree j))
      · have : j = n := by omega
        subst this
        exact hcc _ _ _ _ hp .shutEnd
    | shutNotify j => exact hcc _ _ _ _ hp (.shutNotify _)
  · exact .inl rfl

omit [DecidableEq T] in
theorem step_of_moves {n : Nat} {s : State T} {b : Bool} {k : Nat} {p' : PC T} {e : Eff T} (h : Moves n s b k p' e) :
    Step n s b (s.apply n k p' e) := by
  cases h with
  | call hk hc h => exact .call _ _ _ _ hk hc h
  | work hk h => exact .work _ _ _ _ hk h
  | client h => exact .client _ _ _ h

/-- The client waits for the system to finish. -/
def Waiting (n : Nat) (s : State T) : Prop :=
  s.pc n = .finCheck ∨ s.pc n = .finLock ∨ ∃ b, s.pc n = .finWait b

/-- **C28**: There is no deadlock and no wake-up is lost: while the client waits for the system to finish, some thread can do
a step that is not a wake-up without notification. -/
theorem C28_progress {n : Nat} {s : State T} (h : Reachable n s) (hw : Waiting n s) : ∃ s', Step n s false s' := by
  have hI := inv h
  have hW := wake h
  rcases hw with hw | hw | ⟨b, hw⟩
  · by_cases hz : s.count = 0 ∨ s.aborted = true
    · exact ⟨_, .client _ _ _ (by rw [hw]; exact .checkTrue hz)⟩
    · exact ⟨_, .client _ _ _ (by rw [hw]; exact .checkFalse hz)⟩
  · by_cases hz : s.count = 0 ∨ s.aborted = true
    · exact ⟨_, .client _ _ _ (by rw [hw]; exact .lockTrue hz)⟩
    · exact ⟨_, .client _ _ _ (by rw [hw]; exact .lockFalse hz)⟩
  · cases b with
    | true => exact ⟨_, .client _ _ _ (by rw [hw]; exact .wake true)⟩
    | false =>
      by_contra hno
      have hz := hW.fin hw
      have hst := stuck hI (.inl (by rw [hw]; rfl)) (fun k _ p' e hm => hno ⟨_, step_of_moves hm⟩)
      have hcall : ∀ i, i ≤ n → (s.pc i).call = none := by
        intro i hi
        by_cases hin : i = n
        · subst hin; rw [hw]; rfl
        · rcases hst i (by omega) with h1 | h1 <;> rw [h1] <;> rfl
      have hd : s.down = false := by
        cases hd : s.down with
        | false => rfl
        | true =>
          exfalso
          rcases hW.abort hd with h1 | ⟨i, hi, h1⟩
          · exact hz (.inr h1)
          · rw [hcall i hi] at h1; cases h1
      have hst' : ∀ k, k < n → s.pc k = .wait false := by
        intro k hk
        rcases hst k hk with h1 | h1
        · rw [hI.exited k hk h1] at hd; cases hd
        · exact h1
      have hq : ∀ j, j < n → s.queue j = [] := by
        intro j hj
        by_contra h1
        obtain ⟨i, hi, h2⟩ := hW.notif j hj (hst' j hj) (.inl h1)
        rw [hcall i hi] at h2
        rcases h2 with h2 | h2 <;> cases h2
      apply hz
      left
      rw [hI.work]
      have h1 : s.queued n = 0 :=
        sumN_eq_zero (fun j hj => by show ((List.length _ : Nat) : Int) = 0; rw [hq j hj]; rfl)
      rw [h1, sumN_eq_zero]
      · rfl
      · intro i hi
        show (s.pc i).weight = 0
        by_cases hin : i = n
        · subst hin; rw [hw]; rfl
        · rw [hst' i (by omega)]; rfl

/-- **C28**: After shutdown all workers end: if the client is not queueing a task or shutting down, and no worker can do a
step (other than waking up without notification), then all have left their loop. -/
theorem C28_shutdown_ends {n : Nat} {s : State T} (h : Reachable n s) (hd : s.down = true)
    (hc : (s.pc n).call = none ∨ (s.pc n).call = some .none)
    (hno : ∀ k, k < n → ∀ p' e, ¬ Moves n s false k p' e) : ∀ k, k < n → s.pc k = .exit := by
  have hI := inv h
  have hW := wake h
  have hst := stuck hI hc hno
  have hcall : ∀ i c, i ≤ n → (s.pc i).call = some c → c = .none := by
    intro i c hi h1
    by_cases hin : i = n
    · subst hin
      rcases hc with hc | hc <;> rw [hc] at h1 <;> cases h1
      rfl
    · rcases hst i (by omega) with h2 | h2 <;> rw [h2] at h1 <;> cases h1
  intro k hk
  rcases hst k hk with h1 | h1
  · exact h1
  · exfalso
    cases hq : s.qdone k with
    | false =>
      obtain ⟨i, c, hi, h2, h3⟩ := hW.shut hd k hk hq
      rw [hcall i c hi h2] at h3
      exact h3
    | true =>
      obtain ⟨i, hi, h2⟩ := hW.notif k hk h1 (.inr hq)
      rcases h2 with h2 | h2 <;> cases hcall i _ hi h2

/-! ## Workers do not go round in circles -/

/-- How far a worker is from waiting or running a task. -/
def PC.rank (n : Nat) : PC T → Nat
  | .top => n + 14
  | .scan i => (n - i) + 13
  | .pop => 12
  | .idle => 11
  | .asleep => 10
  | .wait true => 8
  | .wait false => 0
  | .woken => 7
  | .take => 6
  | .popped _ _ => 5
  | .unlock _ _ => 4
  | .have _ => 3
  | _ => 0

/-- A step of a worker that is not the end of a task, nor part of a task, nor waking up without notification. -/
def Sched (n : Nat) (s s' : State T) : Prop :=
  ∃ k p' e, k < n ∧ WorkStep n s k false (s.pc k) p' e ∧ (∀ t, Event.finished t ∉ e.log) ∧ s' = s.apply n k p' e

omit [DecidableEq T] in
theorem sched_rank {n : Nat} {s s' : State T} (hB : ∀ k, k ≤ n → (s.pc k).inB n) (h : Sched n s s') :
    sumN n (fun i => ((s'.pc i).rank n : Int)) < sumN n (fun i => ((s.pc i).rank n : Int)) := by
  obtain ⟨k, p', e, hk, h, hf, rfl⟩ := h
  have hn : e.notify = none := by
    generalize s.pc k = p at h; generalize false = b at h; cases h <;> rfl
  have hpc : ∀ i, i < n → (s.apply n k p' e).pc i = (if i = k then p' else s.pc i) := by
    intro i hi
    show PC.notif _ _ = _
    have : (decide (e.notify = some i) ||
      (decide (i = n) && ((decide (e.count < 0) && decide (s.count + e.count = 0)) || e.abort))) = false := by
      rw [hn, decide_eq_false (Nat.ne_of_lt hi)]
      rfl
    rw [this]
    generalize (if i = k then p' else s.pc i) = q
    cases q <;> simp [PC.notif]
  rw [sumN_change (f := fun i => ((s.pc i).rank n : Int)) hk]
  · rw [hpc k hk, if_pos rfl]
    have hBk := hB k (by omega)
    have : p'.rank n < (s.pc k).rank n := by
      generalize s.pc k = p at h hBk
      generalize hb : false = b at h
      cases h <;> simp_all [PC.inB, PC.rank]; omega
    omega
  · intro i hi hik
    show ((PC.rank n _ : Nat) : Int) = _
    rw [hpc i hi, if_neg hik]

omit [DecidableEq T] in
theorem sched_reach {n : Nat} {s s' : State T} (h : Sched n s s') : Step n s false s' := by
  obtain ⟨k, p', e, hk, h, -, rfl⟩ := h
  exact .work _ _ _ _ hk h

/-- **C28**: Between two steps of tasks the workers can do only finitely many steps: there is no infinite sequence of steps
in which workers look for tasks without a task being run. -/
theorem C28_no_spinning {n : Nat} (f : Nat → State T) (h : Reachable n (f 0)) : ¬ ∀ i, Sched n (f i) (f (i + 1)) := by
  intro hall
  have hr : ∀ i, Reachable n (f i) := by
    intro i
    induction i with
    | zero => exact h
    | succ i ih => exact .step ih (sched_reach (hall i))
  have hpos : ∀ i, 0 ≤ sumN n (fun j => (((f i).pc j).rank n : Int)) := fun i =>
    sumN_nonneg (fun _ _ => Int.natCast_nonneg _)
  have hdec : ∀ i : Nat, sumN n (fun j => (((f i).pc j).rank n : Int)) + i ≤
      sumN n (fun j => (((f 0).pc j).rank n : Int)) := by
    intro i
    induction i with
    | zero => simp
    | succ i ih =>
      have := sched_rank (inv (hr i)).inB (hall i)
      push_cast
      omega
  have h1 := hdec ((sumN n (fun j => (((f 0).pc j).rank n : Int))).toNat + 1)
  have h2 := hpos ((sumN n (fun j => (((f 0).pc j).rank n : Int))).toNat + 1)
  have h3 := hpos 0
  push_cast at h1
  omega

/-- Steps of the client only. -/
inductive ClientSteps (n : Nat) : State T → State T → Prop where
  | refl (s : State T) : ClientSteps n s s
  | step {s s' : State T} {p' : PC T} {e : Eff T} : ClientStep s false (s.pc n) p' e →
      ClientSteps n (s.apply n n p' e) s' → ClientSteps n s s'

/-- **C28**: When nothing is left to be done, waiting ends: the client then gets out of `Finish` by its own steps. -/
theorem C28_returns {n : Nat} {s : State T} (h : Reachable n s) (hi : Idle n s) (hw : Waiting n s) :
    ∃ s', ClientSteps n s s' ∧ s'.pc n = .returned ∧ s'.log = s.log := by
  have hI := inv h
  have hz : s.count = 0 := by
    rw [hI.work]
    have h1 : s.queued n = 0 :=
      sumN_eq_zero (fun j hj => by show ((List.length _ : Nat) : Int) = 0; rw [hi.1 j hj]; rfl)
    rw [h1, sumN_eq_zero]
    · rfl
    · intro i hin
      show (s.pc i).weight = 0
      by_cases hn : i = n
      · subst hn; rcases hw with hw | hw | ⟨b, hw⟩ <;> rw [hw] <;> rfl
      · rcases hi.2 i (by omega) with h1 | ⟨b, h1⟩ <;> rw [h1] <;> rfl
  have hpc : ∀ (s : State T) (p : PC T), (∀ b, p ≠ .wait b) → (∀ b, p ≠ .finWait b) →
      (s.apply n n p {}).pc n = p := by
    intro s p h1 h2
    show PC.notif _ (if n = n then p else s.pc n) = p
    rw [if_pos rfl]
    cases p <;> first | rfl | exact absurd rfl (h1 _) | exact absurd rfl (h2 _)
  have fin : ∀ s : State T, s.count = 0 → s.pc n = .finCheck →
      ∃ s', ClientSteps n s s' ∧ s'.pc n = .returned ∧ s'.log = s.log := by
    intro s hz hp
    refine ⟨s.apply n n .returned {}, .step (by rw [hp]; exact .checkTrue (.inl hz)) (.refl _), ?_, rfl⟩
    exact hpc s _ (fun b h => by cases h) (fun b h => by cases h)
  have lock : ∀ s : State T, s.count = 0 → s.pc n = .finLock →
      ∃ s', ClientSteps n s s' ∧ s'.pc n = .returned ∧ s'.log = s.log := by
    intro s hz hp
    obtain ⟨s', h1, h2, h3⟩ := fin (s.apply n n .finCheck {})
      (by show s.count + 0 = 0; omega) (hpc s _ (fun b h => by cases h) (fun b h => by cases h))
    exact ⟨s', .step (by rw [hp]; exact .lockTrue (.inl hz)) h1, h2, h3⟩
  rcases hw with hw | hw | ⟨b, hw⟩
  · exact fin s hz hw
  · exact lock s hz hw
  · cases b with
    | false => exact absurd (.inl hz) ((wake h).fin hw)
    | true =>
      obtain ⟨s', h1, h2, h3⟩ := lock (s.apply n n .finLock {})
        (by show s.count + 0 = 0; omega) (hpc s _ (fun b h => by cases h) (fun b h => by cases h))
      exact ⟨s', .step (by rw [hw]; exact .wake true) h1, h2, h3⟩

end Verif.Tasks
