import Verif.Tasks.Model

/-!
# The task system: invariants

All invariants are sums over the threads: of what each thread contributes to the workload, of the locks it holds, and
of the tasks it has.
-/

namespace Verif.Tasks

variable {T : Type}

/-! ## Sums -/

/-- The sum of the first numbers. -/
def sumN (n : Nat) (f : Nat → Int) : Int :=
  match n with
  | 0 => 0
  | n + 1 => sumN n f + f n

theorem sumN_congr {n : Nat} {f g : Nat → Int} (h : ∀ i, i < n → f i = g i) : sumN n f = sumN n g := by
  induction n with
  | zero => rfl
  | succ n ih =>
    show sumN n f + f n = sumN n g + g n
    rw [ih (fun i hi => h i (Nat.lt_succ_of_lt hi)), h n (Nat.lt_succ_self n)]

theorem sumN_change {n : Nat} {f g : Nat → Int} {k : Nat} (hk : k < n) (h : ∀ i, i < n → i ≠ k → g i = f i) :
    sumN n g = sumN n f + (g k - f k) := by
  induction n with
  | zero => omega
  | succ n ih =>
    show sumN n g + g n = sumN n f + f n + (g k - f k)
    by_cases hkn : k = n
    · subst hkn
      rw [sumN_congr (f := g) (g := f) (fun i hi => h i (Nat.lt_succ_of_lt hi) (Nat.ne_of_lt hi))]
      omega
    · rw [ih (by omega) (fun i hi => h i (Nat.lt_succ_of_lt hi)), h n (Nat.lt_succ_self n) (Ne.symm hkn)]
      omega

theorem sumN_nonneg {n : Nat} {f : Nat → Int} (h : ∀ i, i < n → 0 ≤ f i) : 0 ≤ sumN n f := by
  induction n with
  | zero => exact Int.le_refl 0
  | succ n ih =>
    show 0 ≤ sumN n f + f n
    have h1 := ih (fun i hi => h i (Nat.lt_succ_of_lt hi))
    have h2 := h n (Nat.lt_succ_self n)
    omega

theorem sumN_le {n : Nat} {f : Nat → Int} (h : ∀ i, i < n → 0 ≤ f i) {k : Nat} (hk : k < n) : f k ≤ sumN n f := by
  induction n with
  | zero => omega
  | succ n ih =>
    show f k ≤ sumN n f + f n
    have h2 := h n (Nat.lt_succ_self n)
    by_cases hkn : k = n
    · subst hkn
      have h1 := sumN_nonneg (n := k) (f := f) (fun i hi => h i (Nat.lt_succ_of_lt hi))
      omega
    · have h1 := ih (fun i hi => h i (Nat.lt_succ_of_lt hi)) (by omega)
      omega

theorem sumN_le_two {n : Nat} {f : Nat → Int} (h : ∀ i, i < n → 0 ≤ f i) {k l : Nat} (hk : k < n) (hl : l < n)
    (hkl : k ≠ l) : f k + f l ≤ sumN n f := by
  have h1 : sumN n (fun i => if i = k then 0 else f i) = sumN n f + (0 - f k) := by
    rw [sumN_change (g := fun i => if i = k then 0 else f i) (f := f) hk
      (fun i _ hi => by simp only [if_neg hi])]
    simp only [if_true]
  have h2 := sumN_le (n := n) (f := fun i => if i = k then 0 else f i)
    (fun i hi => by
      show 0 ≤ (if i = k then 0 else f i)
      split
      · exact Int.le_refl 0
      · exact h i hi) hl
  have h3 : (if l = k then 0 else f l) = f l := if_neg (Ne.symm hkl)
  simp only [h3] at h2
  omega

theorem sumN_zero {n : Nat} {f : Nat → Int} (h : ∀ i, i < n → 0 ≤ f i) (h0 : sumN n f = 0) :
    ∀ i, i < n → f i = 0 := fun i hi => by
  have h1 := sumN_le h hi
  have h2 := h i hi
  omega

theorem sumN_eq_zero {n : Nat} {f : Nat → Int} (h : ∀ i, i < n → f i = 0) : sumN n f = 0 := by
  induction n with
  | zero => rfl
  | succ n ih =>
    show sumN n f + f n = 0
    rw [ih (fun i hi => h i (Nat.lt_succ_of_lt hi)), h n (Nat.lt_succ_self n)]
    rfl

/-! ## What threads contribute -/

def Call.weight : Call T → Int
  | .lockedInc _ _ => 1
  | .plainInc _ _ => 1
  | _ => 0

/-- What a thread contributes to the workload. -/
def PC.weight : PC T → Int
  | .asleep | .wait _ | .woken => 0
  | .popped _ _ => 2
  | .run _ c => 1 + c.weight
  | .client c => c.weight
  | .finCheck | .finLock | .finWait _ | .returned => 0
  | .top | .scan _ | .pop | .idle | .take | .unlock _ _ | .have _ | .exit => 1

def Call.holds (j : Nat) : Call T → Int
  | .locked i _ => if i = j then 1 else 0
  | .lockedInc i _ => if i = j then 1 else 0
  | _ => 0

/-- Whether thread `k` holds the lock of queue `j`. -/
def PC.holds (k j : Nat) : PC T → Int
  | .idle | .asleep | .woken | .take => if k = j then 1 else 0
  | .popped i _ => if i = j then 1 else 0
  | .unlock i _ => if i = j then 1 else 0
  | .run _ c => c.holds j
  | .client c => c.holds j
  | _ => 0

variable [DecidableEq T]

/-- Whether a thread has taken a task without having started it. -/
def PC.has (t : T) : PC T → Int
  | .popped _ u => if u = t then 1 else 0
  | .unlock _ u => if u = t then 1 else 0
  | .have u => if u = t then 1 else 0
  | _ => 0

/-- Whether a thread runs a task. -/
def PC.runs (t : T) : PC T → Int
  | .run u _ => if u = t then 1 else 0
  | _ => 0

omit [DecidableEq T] in
theorem weight_notif (b : Bool) (p : PC T) : (p.notif b).weight = p.weight := by cases p <;> rfl

omit [DecidableEq T] in
theorem holds_notif (k j : Nat) (b : Bool) (p : PC T) : (p.notif b).holds k j = p.holds k j := by cases p <;> rfl

theorem has_notif (t : T) (b : Bool) (p : PC T) : (p.notif b).has t = p.has t := by cases p <;> rfl

theorem runs_notif (t : T) (b : Bool) (p : PC T) : (p.notif b).runs t = p.runs t := by cases p <;> rfl

omit [DecidableEq T] in
theorem weight_nonneg (p : PC T) : 0 ≤ p.weight := by
  cases p <;> simp only [PC.weight] <;> try decide
  all_goals rename_i c; cases c <;> simp only [Call.weight] <;> decide

omit [DecidableEq T] in
theorem holds_nonneg (k j : Nat) (p : PC T) : 0 ≤ p.holds k j := by
  have hc : ∀ c : Call T, 0 ≤ c.holds j := by
    intro c
    cases c <;> simp only [Call.holds] <;> (try split) <;> decide
  cases p <;> simp only [PC.holds] <;> first | exact hc _ | ((try split) <;> decide)

theorem has_nonneg (t : T) (p : PC T) : 0 ≤ p.has t := by
  cases p <;> simp only [PC.has] <;> (try split) <;> decide

theorem runs_nonneg (t : T) (p : PC T) : 0 ≤ p.runs t := by
  cases p <;> simp only [PC.runs] <;> (try split) <;> decide

/-! ## Steps in general -/

/-- A step, as step of one thread with an effect. -/
inductive Moves (n : Nat) (s : State T) : Bool → Nat → PC T → Eff T → Prop where
  | call {k : Nat} {c c' : Call T} {e : Eff T} : k ≤ n → (s.pc k).call = some c → CallStep n s c c' e →
      Moves n s false k ((s.pc k).withCall c') e
  | work {k : Nat} {b : Bool} {p' : PC T} {e : Eff T} : k < n → WorkStep n s k b (s.pc k) p' e → Moves n s b k p' e
  | client {b : Bool} {p' : PC T} {e : Eff T} : ClientStep s b (s.pc n) p' e → Moves n s b n p' e

omit [DecidableEq T] in
theorem step_moves {n : Nat} {s s' : State T} {b : Bool} (h : Step n s b s') :
    ∃ k p' e, Moves n s b k p' e ∧ s' = s.apply n k p' e := by
  cases h with
  | call k c c' e hk hc h => exact ⟨k, _, e, .call hk hc h, rfl⟩
  | work k b p' e hk h => exact ⟨k, p', e, .work hk h, rfl⟩
  | client b p' e h => exact ⟨n, p', e, .client h, rfl⟩

omit [DecidableEq T] in
theorem moves_le {n : Nat} {s : State T} {b : Bool} {k : Nat} {p' : PC T} {e : Eff T} (h : Moves n s b k p' e) :
    k < n + 1 := by
  cases h with
  | call hk _ _ => omega
  | work hk _ => omega
  | client _ => omega

omit [DecidableEq T] in
/-- Sums over all threads after a step. -/
theorem sum_apply {n : Nat} {s : State T} {k : Nat} {p' : PC T} {e : Eff T} (hk : k < n + 1) (F : Nat → PC T → Int)
    (hF : ∀ i b p, F i (PC.notif b p) = F i p) :
    sumN (n + 1) (fun i => F i ((s.apply n k p' e).pc i)) =
      sumN (n + 1) (fun i => F i (s.pc i)) + (F k p' - F k (s.pc k)) := by
  rw [sumN_change (f := fun i => F i (s.pc i)) hk]
  · simp only [State.apply, hF, if_true]
  · intro i _ hi
    simp only [State.apply, hF, if_neg hi]

/-- The change of a queue's length. -/
def Eff.dq (e : Eff T) : Int := (if e.push.isSome then 1 else 0) - (if e.drop.isSome then 1 else 0)

/-! ## The workload -/

/-- What is about to be done refers to queues that exist. -/
def Call.inB (n : Nat) : Call T → Prop
  | .locked j _ | .lockedInc j _ | .plain j _ | .plainInc j _ | .notify j | .shutNotify j => j < n
  | .shutQueue j => j ≤ n
  | _ => True

def PC.inB (n : Nat) : PC T → Prop
  | .scan i => i ≤ n
  | .popped j _ | .unlock j _ => j < n
  | .run _ c | .client c => c.inB n
  | _ => True

omit [DecidableEq T] in
theorem inB_notif (n : Nat) (b : Bool) (p : PC T) : (p.notif b).inB n ↔ p.inB n := by cases p <;> exact Iff.rfl

/-- Whether this is a place of the client. -/
def PC.isClient : PC T → Bool
  | .client _ | .finCheck | .finLock | .finWait _ | .returned => true
  | _ => false

omit [DecidableEq T] in
theorem isClient_notif (b : Bool) (p : PC T) : (p.notif b).isClient = p.isClient := by cases p <;> rfl

omit [DecidableEq T] in
/-- The contribution to the workload changes as the counter does. -/
theorem moves_weight {n : Nat} {s : State T} {b : Bool} {k : Nat} {p' : PC T} {e : Eff T} (h : Moves n s b k p' e) :
    e.count = p'.weight - (s.pc k).weight + e.dq := by
  cases h with
  | call hk hc h =>
    revert hc
    cases hp : s.pc k <;> intro hc <;> simp only [PC.call, Option.some.injEq, reduceCtorEq] at hc <;> subst hc <;>
      cases h <;> simp [PC.withCall, PC.weight, Call.weight, Eff.dq]
  | work hk h => generalize s.pc k = p at h; cases h <;> simp [PC.weight, Call.weight, Eff.dq]
  | client h => generalize s.pc n = p at h; cases h <;> simp [PC.weight, Call.weight, Eff.dq]

omit [DecidableEq T] in
theorem moves_holds {n : Nat} {s : State T} {b : Bool} {k : Nat} {p' : PC T} {e : Eff T} (h : Moves n s b k p' e)
    (j : Nat) : p'.holds k j - (s.pc k).holds k j =
      (if e.acquire = some j then 1 else 0) - (if e.release = some j then 1 else 0) := by
  cases h with
  | call hk hc h =>
    revert hc
    cases hp : s.pc k <;> intro hc <;> simp only [PC.call, Option.some.injEq, reduceCtorEq] at hc <;> subst hc <;>
      cases h <;> simp [PC.withCall, PC.holds, Call.holds]
  | work hk h => generalize s.pc k = p at h; cases h <;> simp [PC.holds, Call.holds]
  | client h => generalize s.pc n = p at h; cases h <;> simp [PC.holds, Call.holds]

omit [DecidableEq T] in
theorem moves_acquire {n : Nat} {s : State T} {b : Bool} {k : Nat} {p' : PC T} {e : Eff T} (h : Moves n s b k p' e)
    {j : Nat} (hj : e.acquire = some j) : s.lock j = false ∧ e.release = none := by
  cases h with
  | call hk hc h => cases h <;> simp_all
  | work hk h => generalize s.pc k = p at h; cases h <;> simp_all
  | client h => generalize s.pc n = p at h; cases h <;> simp_all

omit [DecidableEq T] in
/-- Places are of the right kind, and queues referred to exist. -/
theorem moves_place {n : Nat} {s : State T} {b : Bool} {k : Nat} {p' : PC T} {e : Eff T} (h : Moves n s b k p' e)
    (hB : (s.pc k).inB n) : p'.inB n ∧ p'.isClient = (s.pc k).isClient := by
  cases h with
  | call hk hc h =>
    revert hc hB
    cases hp : s.pc k <;> intro hB hc <;> simp only [PC.call, Option.some.injEq, reduceCtorEq] at hc <;> subst hc <;>
      cases h <;> simp only [PC.withCall, PC.isClient, PC.inB, Call.inB] at * <;>
      simp only [and_true, and_self] <;> omega
  | work hk h =>
    have hm : ∀ i, (k + i) % n < n := fun i => Nat.mod_lt _ (by omega)
    generalize s.pc k = p at h hB; cases h <;> simp_all [PC.isClient, PC.inB, Call.inB]; omega
  | client h => generalize s.pc n = p at h; cases h <;> simp [PC.isClient, PC.inB, Call.inB]

omit [DecidableEq T] in
/-- Queues are changed only with the lock held, or with the lock free. -/
theorem moves_queue {n : Nat} {s : State T} {b : Bool} {k : Nat} {p' : PC T} {e : Eff T} (h : Moves n s b k p' e)
    (hB : (s.pc k).inB n) :
    (∀ j u, e.push = some (j, u) → j < n ∧ e.drop = none ∧ ((s.pc k).holds k j = 1 ∨ s.lock j = false)) ∧
    (∀ j, e.drop = some j → j < n ∧ e.push = none ∧ s.queue j ≠ [] ∧
      ((s.pc k).holds k j = 1 ∨ s.lock j = false)) ∧
    (∀ j, e.qdone = some j → j < n ∧ s.lock j = false) := by
  cases h with
  | call hk hc h =>
    revert hc hB
    cases hp : s.pc k <;> intro hB hc <;> simp only [PC.call, Option.some.injEq, reduceCtorEq] at hc <;> subst hc <;>
      cases h <;> simp_all [PC.inB, Call.inB, PC.holds, Call.holds]
  | work hk h =>
    have hm : ∀ i, (k + i) % n < n := fun i => Nat.mod_lt _ (by omega)
    generalize s.pc k = p at h hB; cases h <;> simp_all [PC.holds]
  | client h => generalize s.pc n = p at h; cases h <;> simp

end Verif.Tasks
