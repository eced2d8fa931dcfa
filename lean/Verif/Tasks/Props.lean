import Verif.Tasks.Safety

/-!
# The task system: properties
-/

namespace Verif.Tasks

variable {T : Type} [DecidableEq T]

/-! ## No wake-up is lost -/

/-- Calls that will still mark queue `j` as done. -/
def Call.todo (j : Nat) : Call T → Prop
  | .shutAbort => True
  | .shutQueue i => i ≤ j
  | .shutNotify i => i < j
  | _ => False

structure Wake (n : Nat) (s : State T) : Prop where
  notif : ∀ j, j < n → s.pc j = .wait false → (s.queue j ≠ [] ∨ s.qdone j = true) →
    ∃ i, i ≤ n ∧ ((s.pc i).call = some (.notify j) ∨ (s.pc i).call = some (.shutNotify j))
  fin : s.pc n = .finWait false → ¬ (s.count = 0 ∨ s.aborted = true)
  shut : s.down = true → ∀ j, j < n → s.qdone j = false → ∃ i c, i ≤ n ∧ (s.pc i).call = some c ∧ c.todo j
  abort : s.down = true → s.aborted = true ∨ ∃ i, i ≤ n ∧ (s.pc i).call = some .shutAbort

omit [DecidableEq T] in
theorem moves_added {n : Nat} {s : State T} {b : Bool} {k : Nat} {p' : PC T} {e : Eff T} (h : Moves n s b k p' e) :
    (∀ j u, e.push = some (j, u) → p'.call = some (.notify j)) ∧
    (∀ j, e.qdone = some j → p'.call = some (.shutNotify j)) ∧
    (∀ j, (s.pc k).call = some (.notify j) ∨ (s.pc k).call = some (.shutNotify j) → e.notify = some j) ∧
    (e.down = true → p'.call = some .shutAbort) ∧
    ((s.pc k).call = some .shutAbort → e.abort = true) := by
  cases h with
  | call hk hc h =>
    have hw : ∀ c', ((s.pc k).withCall c').call = some c' := by
      intro c'
      cases hp : s.pc k <;> rw [hp] at hc <;> first | rfl | cases hc
    rw [hw, hc]
    cases h <;> simp_all
  | work hk h => generalize s.pc k = p at h; cases h <;> simp_all [PC.call]
  | client h => generalize s.pc n = p at h; cases h <;> simp_all [PC.call]

omit [DecidableEq T] in
theorem moves_todo {n : Nat} {s : State T} {b : Bool} {k : Nat} {p' : PC T} {e : Eff T} (h : Moves n s b k p' e)
    {j : Nat} {c : Call T} (hj : j < n) (hc : (s.pc k).call = some c) (ht : c.todo j) :
    e.qdone = some j ∨ ∃ c', p'.call = some c' ∧ c'.todo j := by
  cases h with
  | call hk hc' h =>
    have hw : ∀ c', ((s.pc k).withCall c').call = some c' := by
      intro c'
      cases hp : s.pc k <;> rw [hp] at hc' <;> first | rfl | cases hc'
    rw [hw]
    rw [hc'] at hc
    cases hc
    cases h <;> simp_all [Call.todo] <;> omega
  | work hk h => generalize s.pc k = p at h hc; cases h <;> simp_all [PC.call]; (subst hc; exact ht.elim)
  | client h => generalize s.pc n = p at h hc; cases h <;> simp_all [PC.call]; (subst hc; exact ht.elim)

omit [DecidableEq T] in
theorem moves_wait {n : Nat} {s : State T} {b : Bool} {k : Nat} {p' : PC T} {e : Eff T} (h : Moves n s b k p' e)
    (hk : k < n) (hp : p' = .wait false) :
    ((s.queue k = [] ∧ s.qdone k = false) ∨ s.pc k = .asleep) ∧ e.push = none ∧ e.drop = none ∧ e.qdone = none := by
  cases h with
  | call hk hc h =>
    revert hc hp
    cases hq : s.pc k <;> intro hp hc <;> simp only [PC.call, Option.some.injEq, reduceCtorEq] at hp hc <;>
      simp only [PC.withCall, reduceCtorEq] at hc
  | work _ h => generalize s.pc k = p at h; cases h <;> simp_all
  | client h => exact absurd hk (Nat.lt_irrefl n)

omit [DecidableEq T] in
theorem moves_finWait {n : Nat} {s : State T} {b : Bool} {p' : PC T} {e : Eff T} (h : Moves n s b n p' e)
    (hp : p' = .finWait false) :
    ¬ (s.count = 0 ∨ s.aborted = true) ∧ e.count = 0 ∧ e.abort = false := by
  cases h with
  | call _ hc h =>
    revert hc hp
    cases hq : s.pc n <;> intro hp hc <;> simp only [PC.call, Option.some.injEq, reduceCtorEq] at hp hc <;>
      simp only [PC.withCall, reduceCtorEq] at hc
  | work h' h => exact absurd h' (Nat.lt_irrefl n)
  | client h => generalize s.pc n = p at h; cases h <;> simp_all

omit [DecidableEq T] in
theorem notif_wait {b : Bool} {p : PC T} (h : p.notif b = .wait false) : p = .wait false ∧ b = false := by
  cases p <;> simp_all [PC.notif]

omit [DecidableEq T] in
theorem notif_finWait {b : Bool} {p : PC T} (h : p.notif b = .finWait false) : p = .finWait false ∧ b = false := by
  cases p <;> simp_all [PC.notif]

theorem count_nonneg {n : Nat} {s : State T} (hI : Inv n s) : 0 ≤ s.count := by
  have h1 := sumN_nonneg (n := n + 1) (f := fun i => (s.pc i).weight) (fun i _ => weight_nonneg _)
  have h2 : 0 ≤ s.queued n := sumN_nonneg (fun i _ => Int.natCast_nonneg _)
  rw [hI.work]
  omega

theorem Wake.moves {n : Nat} {s : State T} (hI : Inv n s) (hW : Wake n s) {b : Bool} {k : Nat} {p' : PC T} {e : Eff T}
    (h : Moves n s b k p' e) : Wake n (s.apply n k p' e) := by
  have hk := moves_le h
  obtain ⟨hpush, hqd, hnot, hdown, habort⟩ := moves_added h
  have hcall : ∀ i, ((s.apply n k p' e).pc i).call = (if i = k then p' else s.pc i).call :=
    fun i => call_notif _ _
  have hck : ((s.apply n k p' e).pc k).call = p'.call := by rw [hcall, if_pos rfl]
  refine ⟨?_, ?_, ?_, ?_⟩
  · intro j hj hw hq
    obtain ⟨hw1, hw2⟩ := notif_wait hw
    by_cases hjk : j = k
    · rw [if_pos hjk] at hw1
      subst hjk
      obtain ⟨h1, h2, h3, h4⟩ := moves_wait h hj hw1
      have h5 : (s.apply n j p' e).qdone j = s.qdone j := by
        show (decide _ || _) = _
        rw [h4]; rfl
      rw [h5, queue_apply _ _ _ _ _ _ (by rw [h3]; exact fun h => by cases h)
        (fun u => by rw [h2]; exact fun h => by cases h)] at hq
      have h6 : s.queue j = [] ∧ s.qdone j = false := by
        rcases h1 with h1 | h1
        · exact h1
        · exact hI.empty j hj (.inr h1)
      rcases hq with hq | hq
      · exact absurd h6.1 hq
      · rw [h6.2] at hq; cases hq
    · rw [if_neg hjk] at hw1
      have hnj : e.notify ≠ some j := by
        intro hn
        rw [hn] at hw2
        simp at hw2
      by_cases hp : ∃ u, e.push = some (j, u)
      · obtain ⟨u, hu⟩ := hp
        exact ⟨k, by omega, .inl (hck.trans (hpush j u hu))⟩
      by_cases hd : e.qdone = some j
      · exact ⟨k, by omega, .inr (hck.trans (hqd j hd))⟩
      have hq' : s.queue j ≠ [] ∨ s.qdone j = true := by
        rcases hq with hq | hq
        · left
          intro h0
          apply hq
          unfold State.apply
          simp only [h0, List.tail_nil, ite_self]
          split
          · rename_i j' u he
            rw [if_neg (fun hjj => hp ⟨u, by rw [he, hjj]⟩)]
          · rfl
        · right
          have hq1 : (decide (e.qdone = some j) || s.qdone j) = true := hq
          rwa [decide_eq_false hd, Bool.false_or] at hq1
      obtain ⟨i, hi, hc⟩ := hW.notif j hj hw1 hq'
      by_cases hik : i = k
      · subst hik
        exact absurd (hnot j hc) hnj
      · refine ⟨i, hi, ?_⟩
        rw [hcall, if_neg hik]
        exact hc
  · intro hw
    obtain ⟨hw1, hw2⟩ := notif_finWait hw
    by_cases hnk : n = k
    · subst hnk
      rw [if_pos rfl] at hw1
      obtain ⟨h1, h2, h3⟩ := moves_finWait h hw1
      show ¬ (s.count + e.count = 0 ∨ (e.abort || s.aborted) = true)
      rw [h2, h3, Int.add_zero, Bool.false_or]
      exact h1
    · rw [if_neg hnk] at hw1
      have h1 := hW.fin hw1
      have h0 := count_nonneg hI
      rw [Bool.or_eq_false_iff, Bool.and_eq_false_iff, Bool.or_eq_false_iff] at hw2
      obtain ⟨-, hw2⟩ := hw2
      simp only [decide_true, Bool.true_eq_false, false_or] at hw2
      obtain ⟨h2, h3⟩ := hw2
      show ¬ (s.count + e.count = 0 ∨ (e.abort || s.aborted) = true)
      rw [h3, Bool.false_or]
      rintro (h4 | h4)
      · rw [Bool.and_eq_false_iff] at h2
        rcases h2 with h2 | h2
        · have h2' := of_decide_eq_false h2
          apply h1
          left
          omega
        · exact of_decide_eq_false h2 h4
      · exact h1 (.inr h4)
  · intro hd j hj hq
    have hq1 : (decide (e.qdone = some j) || s.qdone j) = false := hq
    rw [Bool.or_eq_false_iff] at hq1
    have hd1 : (e.down || s.down) = true := hd
    by_cases hed : e.down = true
    · exact ⟨k, _, by omega, hck.trans (hdown hed), trivial⟩
    · have hed' : e.down = false := by simpa using hed
      rw [hed', Bool.false_or] at hd1
      obtain ⟨i, c, hi, hc, ht⟩ := hW.shut hd1 j hj hq1.2
      by_cases hik : i = k
      · subst hik
        rcases moves_todo h hj hc ht with h1 | ⟨c', h1, h2⟩
        · exact absurd h1 (of_decide_eq_false hq1.1)
        · exact ⟨i, c', hi, hck.trans h1, h2⟩
      · exact ⟨i, c, hi, by rw [hcall, if_neg hik]; exact hc, ht⟩
  · intro hd
    have hd1 : (e.down || s.down) = true := hd
    by_cases hed : e.down = true
    · exact .inr ⟨k, by omega, hck.trans (hdown hed)⟩
    · have hed' : e.down = false := by simpa using hed
      rw [hed', Bool.false_or] at hd1
      show (e.abort || s.aborted) = true ∨ _
      rcases hW.abort hd1 with h1 | ⟨i, hi, h1⟩
      · left; rw [h1, Bool.or_true]
      · by_cases hik : i = k
        · subst hik
          left; rw [habort h1, Bool.true_or]
        · exact .inr ⟨i, hi, by rw [hcall, if_neg hik]; exact h1⟩

theorem wake {n : Nat} {s : State T} (h : Reachable n s) : Wake n s := by
  induction h with
  | start =>
    refine ⟨?_, ?_, ?_, ?_⟩
    · intro j _ _ hq
      rcases hq with hq | hq
      · exact absurd rfl hq
      · cases hq
    · intro h
      have h' : (if n = n then PC.client .none else PC.top : PC T) = .finWait false := h
      rw [if_pos rfl] at h'
      cases h'
    · intro h; cases h
    · intro h; cases h
  | step hr hs ih =>
    obtain ⟨k, p', e, hm, rfl⟩ := step_moves hs
    exact ih.moves (inv hr) hm

/-! ## Nothing to do -/

/-- No task is queued, and all workers wait (or are just about to). -/
def Idle (n : Nat) (s : State T) : Prop :=
  (∀ j, j < n → s.queue j = []) ∧ ∀ k, k < n → s.pc k = .asleep ∨ ∃ b, s.pc k = .wait b

theorem idle_of_zero {n : Nat} {s : State T} (hI : Inv n s) (h0 : s.count = 0) (hd : s.down = false) : Idle n s := by
  have h1 := sumN_nonneg (n := n + 1) (f := fun i => (s.pc i).weight) (fun i _ => weight_nonneg _)
  have h2 : 0 ≤ s.queued n := sumN_nonneg (fun i _ => Int.natCast_nonneg _)
  have hw := hI.work
  have hq : ∀ j, j < n → s.queue j = [] := by
    intro j hj
    have := sumN_zero (n := n) (f := fun j => ((s.queue j).length : Int)) (fun i _ => Int.natCast_nonneg _)
      (show s.queued n = 0 by omega) j hj
    exact List.eq_nil_of_length_eq_zero (by simpa using this)
  refine ⟨hq, ?_⟩
  intro k hk
  have h3 := sumN_zero (n := n + 1) (f := fun i => (s.pc i).weight) (fun i _ => weight_nonneg _) (by omega) k
    (by omega)
  have hkind := hI.kind k (by omega)
  rw [decide_eq_false (by omega)] at hkind
  have hwk := fun h => hI.woken k hk (.inl h)
  have hcw : ∀ c : Call T, 0 ≤ c.weight := by
    intro c
    cases c <;> simp only [Call.weight] <;> decide
  generalize s.pc k = p at h3 hkind hwk ⊢
  cases p <;> simp only [PC.weight, PC.isClient, reduceCtorEq] at h3 hkind <;> try omega
  · exact .inl rfl
  · exact .inr ⟨_, rfl⟩
  · rcases hwk rfl with h | h
    · exact absurd (hq k hk) h
    · rw [hI.qdown k h] at hd; cases hd
  · rename_i c
    have := hcw c
    omega

/-- **C28**: Waiting for the task system to finish returns, unless the system is shut down, only when no task is queued or
running: all tasks ever queued were run, exactly as often as they were queued, and have ended. -/
theorem C28_finish_partial {n : Nat} {s s' : State T} {b : Bool} (h : Reachable n s) (hs : Step n s b s')
    (h0 : s.pc n ≠ .returned) (h1 : s'.pc n = .returned) (ha : s.aborted = false) :
    Idle n s' ∧ ∀ t, s'.log.count (.pushed t) = s'.log.count (.started t) ∧
      s'.log.count (.started t) = s'.log.count (.finished t) := by
  obtain ⟨k, p', e, hm, rfl⟩ := step_moves hs
  have hI := inv h
  have hW := wake h
  have hp : (if n = k then p' else s.pc n) = .returned :=
    notif_eq (fun c h => by cases h) (fun c h => by cases h) h1
  have hnk : n = k := by
    by_contra hnk
    rw [if_neg hnk] at hp
    exact h0 hp
  subst hnk
  rw [if_pos rfl] at hp
  subst hp
  -- the step is the check of the counter
  have hz : s.count = 0 ∧ s.pc n = .finCheck := by
    generalize hq : (PC.returned : PC T) = q at hm
    cases hm with
    | call _ hc _ =>
      exfalso
      revert hc hq
      cases hq' : s.pc n <;> intro hc hq <;> simp only [PC.call, Option.some.injEq, reduceCtorEq] at hq hc <;>
        simp only [PC.withCall, reduceCtorEq] at hc hq
    | work h' _ => exact absurd h' (Nat.lt_irrefl _)
    | client h' =>
      generalize s.pc n = p at h'
      cases h' <;> simp_all
  have hd : s.down = false := by
    cases hd : s.down with
    | false => rfl
    | true =>
      exfalso
      rcases hW.abort hd with h2 | ⟨i, hi, h2⟩
      · rw [ha] at h2; cases h2
      · have h3 := sumN_nonneg (n := n + 1) (f := fun i => (s.pc i).weight) (fun i _ => weight_nonneg _)
        have h4 : 0 ≤ s.queued n := sumN_nonneg (fun i _ => Int.natCast_nonneg _)
        have h5 := hI.work
        have h6 := sumN_zero (n := n + 1) (f := fun i => (s.pc i).weight) (fun i _ => weight_nonneg _) (by omega) i
          (by omega)
        have h7 := hI.kind i hi
        by_cases hin : i = n
        · subst hin
          rw [hz.2] at h2; cases h2
        · rw [decide_eq_false hin] at h7
          revert h2 h6 h7
          cases s.pc i <;> intro h2 h6 h7 <;> simp only [PC.call, PC.isClient, Option.some.injEq, reduceCtorEq] at *
          subst h2
          simp [PC.weight, Call.weight] at h6
  have hI' := hI.moves hm
  have heff : e = {} := by
    generalize hq : (PC.returned : PC T) = q at hm
    cases hm with
    | call _ hc _ => rw [hz.2] at hc; cases hc
    | work h' _ => exact absurd h' (Nat.lt_irrefl _)
    | client h' =>
      rw [hz.2] at h'
      cases h' <;> simp_all
  have hidle : Idle n (s.apply n n .returned e) := by
    apply idle_of_zero hI'
    · show s.count + e.count = 0
      rw [heff, hz.1]; rfl
    · show (e.down || s.down) = false
      rw [heff, hd]; rfl
  refine ⟨hidle, ?_⟩
  intro t
  have h2 := hI'.tasks t
  have h3 := hI'.running t
  have h4 : (s.apply n n .returned e).queuedOf n t = 0 :=
    sumN_eq_zero (fun j hj => by show ((List.count t _ : Nat) : Int) = 0; rw [hidle.1 j hj]; rfl)
  have hall : ∀ i, i < n + 1 → ((s.apply n n .returned e).pc i).has t = 0 ∧
      ((s.apply n n .returned e).pc i).runs t = 0 := by
    intro i hi
    by_cases hin : i = n
    · subst hin; rw [h1]; exact ⟨rfl, rfl⟩
    · rcases hidle.2 i (by omega) with h | ⟨b', h⟩ <;> rw [h] <;> exact ⟨rfl, rfl⟩
  have h5 : (s.apply n n .returned e).log.count (.dropped t) = 0 := by
    apply List.count_eq_zero.mpr
    intro hmem
    have := hI'.dropped t hmem
    have hdd : (e.down || s.down) = true := this
    rw [heff, hd] at hdd
    cases hdd
  rw [h4, sumN_eq_zero (fun i hi => (hall i hi).1), h5] at h2
  rw [sumN_eq_zero (fun i hi => (hall i hi).2)] at h3
  constructor <;> omega

/-- Steps during which `Finish` has returned and the client does nothing. -/
inductive During (n : Nat) : State T → State T → Prop where
  | refl (s : State T) : During n s s
  | step {s s' s'' : State T} {b : Bool} : During n s s' → Step n s' b s'' → s''.pc n = .returned → During n s s''

omit [DecidableEq T] in
theorem idle_step {n : Nat} {s s' : State T} {b : Bool} (hi : Idle n s) (hd : ∀ j, s.qdone j = true → j < n → False)
    (hr : s.pc n = .returned) (hs : Step n s b s') (hr' : s'.pc n = .returned) :
    Idle n s' ∧ s'.log = s.log ∧ s'.qdone = s.qdone ∧ s'.down = s.down := by
  obtain ⟨k, p', e, hm, rfl⟩ := step_moves hs
  have hpc : ∀ i, ∃ b', (s.apply n k p' e).pc i = PC.notif b' (if i = k then p' else s.pc i) :=
    fun i => ⟨_, rfl⟩
  have key : k < n ∧ e.push = none ∧ e.drop = none ∧ e.log = [] ∧ e.qdone = none ∧ e.down = false ∧
      p' = .wait false := by
    cases hm with
    | call hk hc h =>
      exfalso
      by_cases hkn : k = n
      · subst hkn; rw [hr] at hc; cases hc
      · rcases hi.2 k (by omega) with h' | ⟨b', h'⟩ <;> rw [h'] at hc <;> cases hc
    | work hk h =>
      refine ⟨hk, ?_⟩
      have hq := hi.1 k hk
      have hd' := fun h => hd k h hk
      rcases hi.2 k hk with h' | ⟨b', h'⟩ <;> rw [h'] at h <;> cases h
      · exact ⟨rfl, rfl, rfl, rfl, rfl, rfl⟩
      · rename_i h1 h2
        rcases h2 with h2 | h2
        · exact absurd hq h2
        · exact (hd' h2).elim
      · exact ⟨rfl, rfl, rfl, rfl, rfl, rfl⟩
    | client h =>
      exfalso
      rw [hr] at h
      cases h
      have h1 : PC.notif _ (if n = n then PC.client .none else s.pc n) = .returned := hr'
      have h2 := notif_eq (fun c h => by cases h) (fun c h => by cases h) h1
      rw [if_pos rfl] at h2
      cases h2
  obtain ⟨hk, h1, h2, h3, h4, h5, h6⟩ := key
  refine ⟨⟨?_, ?_⟩, ?_, ?_, ?_⟩
  · intro j hj
    rw [queue_apply _ _ _ _ _ _ (by rw [h2]; exact fun h => by cases h)
      (fun u => by rw [h1]; exact fun h => by cases h)]
    exact hi.1 j hj
  · intro i hin
    obtain ⟨b', hb⟩ := hpc i
    rw [hb]
    by_cases hik : i = k
    · rw [if_pos hik, h6]
      exact .inr ⟨_, rfl⟩
    · rw [if_neg hik]
      rcases hi.2 i hin with h | ⟨b'', h⟩
      · rw [h]; exact .inl rfl
      · rw [h]; exact .inr ⟨_, rfl⟩
  · show e.log ++ s.log = s.log
    rw [h3]; rfl
  · funext j
    show (decide _ || _) = _
    rw [h4]; rfl
  · show (e.down || s.down) = s.down
    rw [h5]; rfl

/-- **C28**: and no task can appear anymore: as long as the client does not queue one, nothing is queued, started or ended,
and all workers keep waiting, also if they wake up without reason. -/
theorem C28_stays_finished_partial {n : Nat} {s s' s'' : State T} {b : Bool} (h : Reachable n s) (hs : Step n s b s')
    (h0 : s.pc n ≠ .returned) (h1 : s'.pc n = .returned) (ha : s.aborted = false) (hd : During n s' s'') :
    Idle n s'' ∧ s''.log = s'.log := by
  have hidle := (C28_finish_partial h hs h0 h1 ha).1
  have hr' := Reachable.step h hs
  have hI' := inv hr'
  have hW' := wake hr'
  have hdown : s'.down = false := by
    cases hd : s'.down with
    | false => rfl
    | true =>
      exfalso
      rcases hW'.abort hd with h2 | ⟨i, hi, h2⟩
      · -- the step does not abort
        obtain ⟨k, p', e, hm, rfl⟩ := step_moves hs
        have h3 : (e.abort || s.aborted) = true := h2
        rw [ha, Bool.or_false] at h3
        have h4 := (moves_flags hm).1 h3
        have h5 : (if n = k then p' else s.pc n) = .returned :=
          notif_eq (fun c h => by cases h) (fun c h => by cases h) h1
        by_cases hnk : n = k
        · subst hnk
          rw [if_pos rfl] at h5
          rw [h5] at hm
          generalize hq : (PC.returned : PC T) = q at hm
          cases hm with
          | call _ hc _ =>
            revert hc hq
            cases hq' : s.pc n <;> intro hc hq <;> simp only [PC.call, Option.some.injEq, reduceCtorEq] at hq hc <;>
              simp only [PC.withCall, reduceCtorEq] at hc hq
          | work h' _ => exact absurd h' (Nat.lt_irrefl _)
          | client h' =>
            generalize s.pc n = p at h'
            cases h' <;> simp_all
        · rw [if_neg hnk] at h5
          exact h0 h5
      · by_cases hin : i = n
        · subst hin; rw [h1] at h2; cases h2
        · rcases hidle.2 i (by omega) with h | ⟨b', h⟩ <;> rw [h] at h2 <;> cases h2
  have hq : ∀ j, s'.qdone j = true → j < n → False := by
    intro j hj _
    rw [hI'.qdown j hj] at hdown
    cases hdown
  clear hs h0 ha
  suffices Idle n s'' ∧ s''.log = s'.log ∧ s''.qdone = s'.qdone ∧ s''.pc n = .returned from ⟨this.1, this.2.1⟩
  induction hd with
  | refl => exact ⟨hidle, rfl, rfl, h1⟩
  | step _ hst hret ih =>
    obtain ⟨i1, i2, i3, i4⟩ := ih
    obtain ⟨j1, j2, j3, -⟩ := idle_step i1 (by rw [i3]; exact hq) i4 hst hret
    exact ⟨j1, j2.trans i2, j3.trans i3, hret⟩

/-- **C28**: In no state has a task been started more often than it was queued; and unless the system is shut down, no task
gets lost: what was queued is in a queue, was taken by a thread that has not started it yet, or was started. -/
theorem C28_once {n : Nat} {s : State T} (h : Reachable n s) (t : T) :
    s.log.count (.started t) ≤ s.log.count (.pushed t) ∧
    (s.down = false → (s.log.count (.pushed t) : Int) =
      s.queuedOf n t + sumN (n + 1) (fun i => (s.pc i).has t) + s.log.count (.started t)) := by
  have hI := inv h
  have h1 := hI.tasks t
  have h2 : 0 ≤ s.queuedOf n t := sumN_nonneg (fun i _ => Int.natCast_nonneg _)
  have h3 := sumN_nonneg (n := n + 1) (f := fun i => (s.pc i).has t) (fun i _ => has_nonneg t _)
  refine ⟨by omega, fun hd => ?_⟩
  have h4 : s.log.count (.dropped t) = 0 := by
    apply List.count_eq_zero.mpr
    intro hmem
    rw [hI.dropped t hmem] at hd
    cases hd
  omega

end Verif.Tasks
