import Verif.Tasks.Inv

/-!
# The task system: what holds in all reachable states
-/

namespace Verif.Tasks

variable {T : Type} [DecidableEq T]

/-- The number of queued tasks. -/
def State.queued (s : State T) (n : Nat) : Int := sumN n fun j => ((s.queue j).length : Int)

/-- How often a task is queued. -/
def State.queuedOf (s : State T) (n : Nat) (t : T) : Int := sumN n fun j => ((s.queue j).count t : Int)

/-- Calls that have set `shutdown_`. -/
def Call.late : Call T → Bool
  | .shutAbort | .shutQueue _ | .shutNotify _ => true
  | _ => false

structure Inv (n : Nat) (s : State T) : Prop where
  inB : ∀ k, k ≤ n → (s.pc k).inB n
  kind : ∀ k, k ≤ n → (s.pc k).isClient = decide (k = n)
  work : s.count = sumN (n + 1) (fun i => (s.pc i).weight) + s.queued n
  lock : ∀ j, sumN (n + 1) (fun i => (s.pc i).holds i j) = if s.lock j = true then 1 else 0
  woken : ∀ k, k < n → s.pc k = .woken ∨ s.pc k = .take → s.queue k ≠ [] ∨ s.qdone k = true
  empty : ∀ k, k < n → s.pc k = .idle ∨ s.pc k = .asleep → s.queue k = [] ∧ s.qdone k = false
  qdown : ∀ j, s.qdone j = true → s.down = true
  late : ∀ k c, k ≤ n → (s.pc k).call = some c → c.late = true → s.down = true
  adown : s.aborted = true → s.down = true
  tasks : ∀ t, (s.log.count (.pushed t) : Int) = s.queuedOf n t + sumN (n + 1) (fun i => (s.pc i).has t) +
    s.log.count (.started t) + s.log.count (.dropped t)
  running : ∀ t, (s.log.count (.started t) : Int) = sumN (n + 1) (fun i => (s.pc i).runs t) +
    s.log.count (.finished t)
  dropped : ∀ t, Event.dropped t ∈ s.log → s.down = true
  exited : ∀ k, k < n → s.pc k = .exit → s.down = true

omit [DecidableEq T] in
theorem queue_apply (s : State T) (n k : Nat) (p' : PC T) (e : Eff T) (j : Nat)
    (h1 : e.drop ≠ some j) (h2 : ∀ u, e.push ≠ some (j, u)) : (s.apply n k p' e).queue j = s.queue j := by
  unfold State.apply
  simp only [if_neg h1]
  split
  · rename_i j' u he
    rw [if_neg (fun h => h2 u (by rw [he, h]))]
  · rfl

omit [DecidableEq T] in
/-- Sums over the queues after a step. -/
theorem qsum_apply {n : Nat} {s : State T} {b : Bool} {k : Nat} {p' : PC T} {e : Eff T} (h : Moves n s b k p' e)
    (hB : (s.pc k).inB n) (F : List T → Int) :
    sumN n (fun j => F ((s.apply n k p' e).queue j)) = sumN n (fun j => F (s.queue j)) +
      (match e.push with
        | some (j, u) => F (s.queue j ++ [u]) - F (s.queue j)
        | none => 0) +
      (match e.drop with
        | some j => F (s.queue j).tail - F (s.queue j)
        | none => 0) := by
  obtain ⟨hp, hd, -⟩ := moves_queue h hB
  obtain ⟨o, ho⟩ : ∃ o, e.push = o := ⟨_, rfl⟩
  obtain ⟨d, hd'⟩ : ∃ d, e.drop = d := ⟨_, rfl⟩
  cases o with
  | some ju =>
    obtain ⟨j, u⟩ := ju
    obtain ⟨hj, hn, -⟩ := hp j u ho
    rw [sumN_change (f := fun j => F (s.queue j)) hj]
    · rw [ho, hn]
      simp only [State.apply, hn, ho, reduceCtorEq, if_false, if_true]
      omega
    · intro i _ hi
      show F _ = F _
      rw [queue_apply s n k p' e i (by rw [hn]; exact fun h => by cases h)
        (fun u' h' => by rw [ho] at h'; cases h'; exact hi rfl)]
  | none =>
    cases d with
    | some j =>
      obtain ⟨hj, hn, -⟩ := hd j hd'
      rw [sumN_change (f := fun j => F (s.queue j)) hj]
      · rw [ho, hd']
        simp only [State.apply, hd', ho, if_true]
        omega
      · intro i _ hi
        show F _ = F _
        rw [queue_apply s n k p' e i (by rw [hd']; exact fun h => hi (by cases h; rfl))
          (fun u' h' => by rw [ho] at h'; cases h')]
    | none =>
      rw [ho, hd']
      simp only [Int.add_zero]
      apply sumN_congr
      intro i _
      rw [queue_apply s n k p' e i (by rw [hd']; exact fun h => by cases h)
          (fun u' h' => by rw [ho] at h'; cases h')]

omit [DecidableEq T] in
/-- The queue of a lock held by another thread does not change. -/
theorem frame {n : Nat} {s : State T} {b : Bool} {k : Nat} {p' : PC T} {e : Eff T} (h : Moves n s b k p' e)
    (hB : (s.pc k).inB n)
    (hl : ∀ j, sumN (n + 1) (fun i => (s.pc i).holds i j) = if s.lock j = true then 1 else 0)
    {i j : Nat} (hi : i < n + 1) (hik : i ≠ k) (hh : (s.pc i).holds i j = 1) :
    (s.apply n k p' e).queue j = s.queue j ∧ (s.apply n k p' e).qdone j = s.qdone j := by
  have hk := moves_le h
  have h1 := sumN_le_two (n := n + 1) (f := fun i => (s.pc i).holds i j) (fun i _ => holds_nonneg i j _) hi hk hik
  simp only [hl j, hh] at h1
  have h2 := holds_nonneg k j (s.pc k)
  have hlock : s.lock j = true ∧ (s.pc k).holds k j = 0 := by
    by_cases hc : s.lock j = true
    · rw [if_pos hc] at h1; exact ⟨hc, by omega⟩
    · rw [if_neg hc] at h1; omega
  obtain ⟨hp, hd, hq⟩ := moves_queue h hB
  constructor
  · apply queue_apply
    · intro h
      obtain ⟨-, -, -, h' | h'⟩ := hd j h
      · rw [hlock.2] at h'; omega
      · rw [hlock.1] at h'; cases h'
    · intro u h
      obtain ⟨-, -, h' | h'⟩ := hp j u h
      · rw [hlock.2] at h'; omega
      · rw [hlock.1] at h'; cases h'
  · show (decide _ || _) = _
    rw [decide_eq_false, Bool.false_or]
    intro h
    rw [(hq j h).2] at hlock
    cases hlock.1

omit [DecidableEq T] in
theorem notif_eq {b : Bool} {p q : PC T} (hq : ∀ c, q ≠ .wait c) (hq' : ∀ c, q ≠ .finWait c)
    (h : p.notif b = q) : p = q := by
  cases p <;> simp only [PC.notif] at h <;> first | exact h | exact absurd h.symm (hq _) | exact absurd h.symm (hq' _)

omit [DecidableEq T] in
/-- Which steps lead to waking up and to sleep. -/
theorem moves_woken {n : Nat} {s : State T} {b : Bool} {k : Nat} {p' : PC T} {e : Eff T} (h : Moves n s b k p' e)
    (hk : k < n) (hp : p' = .woken ∨ p' = .take) :
    ((s.queue k ≠ [] ∨ s.qdone k = true) ∨ s.pc k = .woken) ∧ e.push = none ∧ e.drop = none := by
  cases h with
  | call hk hc h =>
    revert hc hp
    cases hq : s.pc k <;> intro hc hp <;> simp only [PC.call, Option.some.injEq, reduceCtorEq] at hc <;>
      simp only [PC.withCall, reduceCtorEq, or_false] at hp
  | work _ h => generalize s.pc k = p at h; cases h <;> simp_all
  | client h => exact absurd hk (Nat.lt_irrefl n)

omit [DecidableEq T] in
theorem moves_exit {n : Nat} {s : State T} {b : Bool} {k : Nat} {p' : PC T} {e : Eff T} (h : Moves n s b k p' e)
    (hk : k < n) (hp : p' = .exit) : s.down = true ∨ (s.pc k = .take ∧ s.queue k = []) := by
  cases h with
  | call hk hc h =>
    revert hc hp
    cases hq : s.pc k <;> intro hc hp <;> simp only [PC.call, Option.some.injEq, reduceCtorEq] at hc <;>
      simp only [PC.withCall, reduceCtorEq] at hp
  | work _ h => generalize s.pc k = p at h; cases h <;> simp_all
  | client h => exact absurd hk (Nat.lt_irrefl n)

omit [DecidableEq T] in
theorem moves_asleep {n : Nat} {s : State T} {b : Bool} {k : Nat} {p' : PC T} {e : Eff T} (h : Moves n s b k p' e)
    (hk : k < n) (hp : p' = .idle ∨ p' = .asleep) :
    ((s.queue k = [] ∧ s.qdone k = false) ∨ s.pc k = .idle) ∧ e.push = none ∧ e.drop = none ∧ e.qdone = none := by
  cases h with
  | call hk hc h =>
    revert hc hp
    cases hq : s.pc k <;> intro hc hp <;> simp only [PC.call, Option.some.injEq, reduceCtorEq] at hc <;>
      simp only [PC.withCall, reduceCtorEq, or_false] at hp
  | work _ h => generalize s.pc k = p at h; cases h <;> simp_all
  | client h => exact absurd hk (Nat.lt_irrefl n)

/-- How tasks move. -/
theorem moves_tasks {n : Nat} {s : State T} {b : Bool} {k : Nat} {p' : PC T} {e : Eff T} (h : Moves n s b k p' e)
    (t : T) :
    (e.log.count (.pushed t) : Int) = (match e.push with
        | some (j, u) => ((s.queue j ++ [u]).count t : Int) - (s.queue j).count t
        | none => 0) +
      (match e.drop with
        | some j => ((s.queue j).tail.count t : Int) - (s.queue j).count t
        | none => 0) + (p'.has t - (s.pc k).has t) + e.log.count (.started t) + e.log.count (.dropped t) := by
  cases h with
  | call hk hc h =>
    revert hc
    cases hp : s.pc k <;> intro hc <;> simp only [PC.call, Option.some.injEq, reduceCtorEq] at hc <;> subst hc <;>
      cases h <;>
      simp [PC.withCall, PC.has, List.count_append, List.count_cons, List.count_nil] <;> omega
  | work hk h =>
    generalize s.pc k = p at h
    cases h <;> simp_all [PC.has, List.count_cons, List.count_nil] <;> split <;> simp_all <;> omega
  | client h => generalize s.pc n = p at h; cases h <;> simp [PC.has]

theorem moves_runs {n : Nat} {s : State T} {b : Bool} {k : Nat} {p' : PC T} {e : Eff T} (h : Moves n s b k p' e)
    (t : T) :
    (e.log.count (.started t) : Int) = (p'.runs t - (s.pc k).runs t) + e.log.count (.finished t) := by
  cases h with
  | call hk hc h =>
    revert hc
    cases hp : s.pc k <;> intro hc <;> simp only [PC.call, Option.some.injEq, reduceCtorEq] at hc <;> subst hc <;>
      cases h <;>
      simp [PC.withCall, PC.runs, List.count_nil]
  | work hk h =>
    generalize s.pc k = p at h
    cases h <;> simp [PC.runs, List.count_cons, List.count_nil] <;> split <;> simp_all
  | client h => generalize s.pc n = p at h; cases h <;> simp [PC.runs]

omit [DecidableEq T] in
/-- Flags are set in order, and tasks dropped only after shutdown. -/
theorem moves_flags {n : Nat} {s : State T} {b : Bool} {k : Nat} {p' : PC T} {e : Eff T} (h : Moves n s b k p' e) :
    (e.abort = true → (s.pc k).call = some .shutAbort) ∧
    (∀ j, e.qdone = some j → (s.pc k).call = some (.shutQueue j)) ∧
    (∀ t, Event.dropped t ∈ e.log → s.down = true) := by
  cases h with
  | call hk hc h => rw [hc]; cases h <;> simp_all
  | work hk h => generalize s.pc k = p at h; cases h <;> simp_all
  | client h => generalize s.pc n = p at h; cases h <;> simp_all

omit [DecidableEq T] in
theorem call_notif (b : Bool) (p : PC T) : (p.notif b).call = p.call := by cases p <;> rfl

omit [DecidableEq T] in
theorem moves_late {n : Nat} {s : State T} {b : Bool} {k : Nat} {p' : PC T} {e : Eff T} (h : Moves n s b k p' e)
    {c : Call T} (hc : p'.call = some c) (hl : c.late = true) :
    e.down = true ∨ ∃ c', (s.pc k).call = some c' ∧ c'.late = true := by
  cases h with
  | call hk hc' h =>
    rw [hc']
    revert hc' hc
    cases hp : s.pc k <;> intro hc' hc <;> simp only [PC.call, Option.some.injEq, reduceCtorEq] at hc' <;>
      subst hc' <;> simp only [PC.withCall, PC.call, Option.some.injEq] at hc <;> subst hc <;>
      cases h <;> simp_all [Call.late]
  | work hk h => generalize s.pc k = p at h; cases h <;> simp_all [PC.call, Call.late]; (subst hc; simp at hl)
  | client h => generalize s.pc n = p at h; cases h <;> simp_all [PC.call, Call.late]; (subst hc; simp at hl)

omit [DecidableEq T] in
theorem call_isClient_start (n i : Nat) : ((start n : State T).pc i).call = none ∨
    ((start n : State T).pc i).call = some .none := by
  have h : (start n : State T).pc i = if i = n then PC.client .none else PC.top := rfl
  rw [h]
  split
  · exact .inr rfl
  · exact .inl rfl

theorem inv_start (n : Nat) : Inv n (start n : State T) where
  inB := by
    intro k _
    show (if k = n then PC.client .none else PC.top : PC T).inB n
    split <;> trivial
  kind := by
    intro k _
    show (if k = n then PC.client .none else PC.top : PC T).isClient = _
    split
    · rename_i h; simp [h, PC.isClient]
    · rename_i h; simp [h, PC.isClient]
  work := by
    have h1 : sumN (n + 1) (fun i => ((start n : State T).pc i).weight) = n := by
      show sumN n (fun i => ((start n : State T).pc i).weight) + ((start n : State T).pc n).weight = _
      have h2 : ((start n : State T).pc n).weight = 0 := by
        show (if n = n then PC.client .none else PC.top : PC T).weight = 0
        rw [if_pos rfl]; rfl
      rw [h2, sumN_congr (g := fun _ => 1)]
      · clear h2
        have : ∀ m : Nat, sumN m (fun _ => 1) = (m : Int) := by
          intro m
          induction m with
          | zero => rfl
          | succ m ih =>
            show sumN m (fun _ => 1) + 1 = _
            rw [ih]; omega
        rw [this]; omega
      · intro i hi
        show (if i = n then PC.client .none else PC.top : PC T).weight = 1
        rw [if_neg (Nat.ne_of_lt hi)]; rfl
    have h2 : (start n : State T).queued n = 0 := sumN_eq_zero (fun _ _ => rfl)
    rw [h1, h2]
    show (n : Int) = n + 0
    omega
  lock := by
    intro j
    show _ = if false = true then 1 else 0
    rw [if_neg (by decide)]
    apply sumN_eq_zero
    intro i _
    show (if i = n then PC.client .none else PC.top : PC T).holds i j = 0
    split <;> rfl
  woken := by
    intro k hk h
    have h' : (if k = n then PC.client .none else PC.top : PC T) = .woken ∨
      (if k = n then PC.client .none else PC.top : PC T) = .take := h
    rw [if_neg (Nat.ne_of_lt hk)] at h'
    rcases h' with h' | h' <;> cases h'
  empty := by
    intro k hk h
    have h' : (if k = n then PC.client .none else PC.top : PC T) = .idle ∨
      (if k = n then PC.client .none else PC.top : PC T) = .asleep := h
    rw [if_neg (Nat.ne_of_lt hk)] at h'
    rcases h' with h' | h' <;> cases h'
  qdown := by intro j h; cases h
  late := by
    intro k c _ h hl
    rcases call_isClient_start (T := T) n k with h' | h'
    · rw [h'] at h; cases h
    · rw [h'] at h; cases h; cases hl
  adown := by intro h; cases h
  tasks := by
    intro t
    have h1 : (start n : State T).queuedOf n t = 0 := sumN_eq_zero (fun _ _ => rfl)
    have h2 : sumN (n + 1) (fun i => ((start n : State T).pc i).has t) = 0 := by
      apply sumN_eq_zero
      intro i _
      show (if i = n then PC.client .none else PC.top : PC T).has t = 0
      split <;> rfl
    rw [h1, h2]
    rfl
  running := by
    intro t
    have h2 : sumN (n + 1) (fun i => ((start n : State T).pc i).runs t) = 0 := by
      apply sumN_eq_zero
      intro i _
      show (if i = n then PC.client .none else PC.top : PC T).runs t = 0
      split <;> rfl
    rw [h2]
    rfl
  dropped := by intro t h; cases h
  exited := by
    intro k hk h
    have h' : (if k = n then PC.client .none else PC.top : PC T) = .exit := h
    rw [if_neg (Nat.ne_of_lt hk)] at h'
    cases h'

theorem Inv.moves {n : Nat} {s : State T} (hI : Inv n s) {b : Bool} {k : Nat} {p' : PC T} {e : Eff T}
    (h : Moves n s b k p' e) : Inv n (s.apply n k p' e) := by
  have hk := moves_le h
  have hB := hI.inB k (by omega)
  obtain ⟨hB', hC'⟩ := moves_place h hB
  have hpc : ∀ i, ∃ b', (s.apply n k p' e).pc i = PC.notif b' (if i = k then p' else s.pc i) :=
    fun i => ⟨_, rfl⟩
  refine ⟨?_, ?_, ?_, ?_, ?_, ?_, ?_, ?_, ?_, ?_, ?_, ?_, ?_⟩
  · intro i hi
    obtain ⟨b', hb⟩ := hpc i
    rw [hb, inB_notif]
    split
    · exact hB'
    · exact hI.inB i hi
  · intro i hi
    obtain ⟨b', hb⟩ := hpc i
    rw [hb, isClient_notif]
    split
    · rename_i hik; rw [hC', hik]; exact hI.kind k (by omega)
    · exact hI.kind i hi
  · rw [sum_apply hk (fun _ p => p.weight) (fun _ b p => weight_notif b p)]
    unfold State.queued
    rw [qsum_apply h hB (fun q => (q.length : Int))]
    show s.count + e.count = _
    rw [moves_weight h, hI.work]
    obtain ⟨hp, hd, -⟩ := moves_queue h hB
    have hdq : e.dq = (match e.push with
        | some (j, u) => ((s.queue j ++ [u]).length : Int) - (s.queue j).length
        | none => 0) +
      (match e.drop with
        | some j => ((s.queue j).tail.length : Int) - (s.queue j).length
        | none => 0) := by
      unfold Eff.dq
      obtain ⟨o, ho⟩ : ∃ o, e.push = o := ⟨_, rfl⟩
      obtain ⟨d, hd'⟩ : ∃ d, e.drop = d := ⟨_, rfl⟩
      rw [ho, hd']
      have hd2 : ∀ j, d = some j → ((s.queue j).tail.length : Int) - (s.queue j).length = -1 := by
        intro j hj
        obtain ⟨-, -, hne, -⟩ := hd j (hd'.trans hj)
        cases hq : s.queue j with
        | nil => exact absurd hq hne
        | cons t q => simp only [List.tail_cons, List.length_cons]; omega
      cases o with
      | some ju =>
        cases d with
        | some j => simp only [hd2 j rfl, List.length_append, List.length_singleton]; simp; omega
        | none => simp only [List.length_append, List.length_singleton]; simp; omega
      | none =>
        cases d with
        | some j => simp only [hd2 j rfl]; simp
        | none => simp
    rw [hdq]
    unfold State.queued
    omega
  · intro j
    rw [sum_apply hk (fun i p => p.holds i j) (fun i b p => holds_notif i j b p), hI.lock j, moves_holds h j]
    show _ = if (if e.acquire = some j then true else if e.release = some j then false else s.lock j) = true
      then (1 : Int) else 0
    by_cases ha : e.acquire = some j
    · obtain ⟨hl, hr⟩ := moves_acquire h ha
      simp [ha, hr, hl]
    · rw [if_neg ha, if_neg ha]
      by_cases hr : e.release = some j
      · rw [if_pos hr, if_pos hr]
        have h1 := moves_holds h j
        rw [if_neg ha, if_pos hr] at h1
        have h2 := holds_nonneg k j p'
        have h3 := sumN_le (n := n + 1) (f := fun i => (s.pc i).holds i j) (fun i _ => holds_nonneg i j _) hk
        simp only [hI.lock j] at h3
        by_cases hl : s.lock j = true
        · simp [hl]
        · rw [if_neg hl] at h3; omega
      · rw [if_neg hr, if_neg hr]; simp
  · intro i hi hw
    obtain ⟨b', hb⟩ := hpc i
    rw [hb] at hw
    have hw' : (if i = k then p' else s.pc i) = .woken ∨ (if i = k then p' else s.pc i) = .take := by
      rcases hw with hw | hw
      · exact .inl (notif_eq (fun c h => by cases h) (fun c h => by cases h) hw)
      · exact .inr (notif_eq (fun c h => by cases h) (fun c h => by cases h) hw)
    by_cases hik : i = k
    · rw [if_pos hik] at hw'
      subst hik
      obtain ⟨h1, h2, h3⟩ := moves_woken h hi hw'
      rw [queue_apply _ _ _ _ _ _ (by rw [h3]; exact fun h => by cases h)
        (fun u => by rw [h2]; exact fun h => by cases h)]
      have h4 : s.queue i ≠ [] ∨ s.qdone i = true := by
        rcases h1 with h1 | h1
        · exact h1
        · exact hI.woken i hi (.inl h1)
      rcases h4 with h1 | h1
      · exact .inl h1
      · right
        show (decide _ || _) = true
        rw [h1, Bool.or_true]
    · rw [if_neg hik] at hw'
      obtain ⟨h1, h2⟩ := frame h hB hI.lock (by omega) hik
        (show (s.pc i).holds i i = 1 by rcases hw' with hw' | hw' <;> rw [hw'] <;> simp [PC.holds])
      rw [h1, h2]
      exact hI.woken i hi hw'
  · intro i hi hw
    obtain ⟨b', hb⟩ := hpc i
    rw [hb] at hw
    have hw' : (if i = k then p' else s.pc i) = .idle ∨ (if i = k then p' else s.pc i) = .asleep := by
      rcases hw with hw | hw
      · exact .inl (notif_eq (fun c h => by cases h) (fun c h => by cases h) hw)
      · exact .inr (notif_eq (fun c h => by cases h) (fun c h => by cases h) hw)
    by_cases hik : i = k
    · rw [if_pos hik] at hw'
      subst hik
      obtain ⟨h1, h2, h3, h4⟩ := moves_asleep h hi hw'
      rw [queue_apply _ _ _ _ _ _ (by rw [h3]; exact fun h => by cases h)
        (fun u => by rw [h2]; exact fun h => by cases h)]
      have h5 : (s.apply n i p' e).qdone i = s.qdone i := by
        show (decide _ || _) = _
        rw [h4]; rfl
      rw [h5]
      rcases h1 with h1 | h1
      · exact h1
      · exact hI.empty i hi (.inl h1)
    · rw [if_neg hik] at hw'
      obtain ⟨h1, h2⟩ := frame h hB hI.lock (by omega) hik
        (show (s.pc i).holds i i = 1 by rcases hw' with hw' | hw' <;> rw [hw'] <;> simp [PC.holds])
      rw [h1, h2]
      exact hI.empty i hi hw'
  · intro j hj
    have hj' : (decide (e.qdone = some j) || s.qdone j) = true := hj
    show (e.down || s.down) = true
    rw [Bool.or_eq_true, decide_eq_true_eq] at hj'
    have : s.down = true := by
      rcases hj' with hj' | hj'
      · exact hI.late k _ (by omega) ((moves_flags h).2.1 j hj') rfl
      · exact hI.qdown j hj'
    rw [this, Bool.or_true]
  · intro i c hi hc hl
    obtain ⟨b', hb⟩ := hpc i
    rw [hb, call_notif] at hc
    show (e.down || s.down) = true
    by_cases hik : i = k
    · rw [if_pos hik] at hc
      rcases moves_late h hc hl with h1 | ⟨c', h1, h2⟩
      · rw [h1, Bool.true_or]
      · rw [hI.late k c' (by omega) h1 h2, Bool.or_true]
    · rw [if_neg hik] at hc
      rw [hI.late i c hi hc hl, Bool.or_true]
  · intro ha
    have ha' : (e.abort || s.aborted) = true := ha
    show (e.down || s.down) = true
    rw [Bool.or_eq_true] at ha'
    have : s.down = true := by
      rcases ha' with h1 | h1
      · exact hI.late k _ (by omega) ((moves_flags h).1 h1) rfl
      · exact hI.adown h1
    rw [this, Bool.or_true]
  · intro t
    rw [sum_apply hk (fun _ p => p.has t) (fun _ b p => has_notif t b p)]
    unfold State.queuedOf
    rw [qsum_apply h hB (fun q => (q.count t : Int))]
    have h1 := moves_tasks h t
    have h2 := hI.tasks t
    unfold State.queuedOf at h2
    have h3 : ∀ x, (s.apply n k p' e).log.count x = e.log.count x + s.log.count x := fun x =>
      List.count_append
    simp only [h3]
    omega
  · intro t
    rw [sum_apply hk (fun _ p => p.runs t) (fun _ b p => runs_notif t b p)]
    have h1 := moves_runs h t
    have h2 := hI.running t
    have h3 : ∀ x, (s.apply n k p' e).log.count x = e.log.count x + s.log.count x := fun x =>
      List.count_append
    simp only [h3]
    omega
  · intro t ht
    have ht' : Event.dropped t ∈ e.log ++ s.log := ht
    show (e.down || s.down) = true
    have : s.down = true := by
      rcases List.mem_append.mp ht' with h1 | h1
      · exact (moves_flags h).2.2 t h1
      · exact hI.dropped t h1
    rw [this, Bool.or_true]
  · intro i hi hw
    obtain ⟨b', hb⟩ := hpc i
    rw [hb] at hw
    have hw' := notif_eq (fun c h => by cases h) (fun c h => by cases h) hw
    show (e.down || s.down) = true
    have : s.down = true := by
      by_cases hik : i = k
      · rw [if_pos hik] at hw'
        subst hik
        rcases moves_exit h hi hw' with h1 | ⟨h1, h2⟩
        · exact h1
        · rcases hI.woken i hi (.inr h1) with h3 | h3
          · exact absurd h2 h3
          · exact hI.qdown i h3
      · rw [if_neg hik] at hw'
        exact hI.exited i hi hw'
    rw [this, Bool.or_true]

theorem inv {n : Nat} {s : State T} (h : Reachable n s) : Inv n s := by
  induction h with
  | start => exact inv_start n
  | step _ hs ih =>
    obtain ⟨k, p', e, hm, rfl⟩ := step_moves hs
    exact ih.moves hm

end Verif.Tasks
