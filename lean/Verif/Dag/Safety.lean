import Verif.Dag.Inv
import Mathlib.Tactic.Push

/-!
# Traversal: every action at most once, after its inputs, and only if needed
-/

namespace Verif.Dag

variable {Art Act : Type} [DecidableEq Art] [DecidableEq Act]

/-- The order of what is observed (latest first). -/
def Ordered (g : Graph Art Act) : List (Event Art Act) → Prop
  | [] => True
  | e :: l => Ordered g l ∧
    match e with
    | .started (.act c) => ∀ d ∈ g.deps c, .available d ∈ l
    | .started (.art a) => g.builder a = none
    | .finished n _ => .started n ∈ l
    | .available a => .finished (source g a) true ∈ l

structure Safe (g : Graph Art Act) (s : Core Art Act) (P : Op Art Act → Nat) : Prop where
  proc : ∀ n, P (.pushProc n) + P (.process n) + s.log.count (.started n) ≤ if s.queued n = true then 1 else 0
  run : ∀ n, P (.running n) + s.log.count (.finished n true) + s.log.count (.finished n false) =
    s.log.count (.started n)
  leaf : ∀ a, (0 < P (.queueProc (.art a)) ∨ 0 < P (.qpReq (.art a)) ∨ 0 < P (.qpMark (.art a)) ∨
    0 < P (.pushProc (.art a)) ∨ 0 < P (.process (.art a)) ∨ .started (.art a) ∈ s.log) → g.builder a = none
  notif : ∀ a, P (.notify a) + s.log.count (.available a) = s.log.count (.finished (source g a) true)
  avail : ∀ a, s.avail a = true ↔ .available a ∈ s.log
  count : ∀ c, s.count c = (g.deps c).countP (fun d => !s.avail d) + P (.dec c)
  ready : ∀ c, (0 < P (.queueProc (.act c)) ∨ 0 < P (.qpReq (.act c)) ∨ 0 < P (.qpMark (.act c)) ∨
    0 < P (.pushProc (.act c)) ∨ 0 < P (.process (.act c))) → s.count c = 0
  order : Ordered g s.log

section
variable {g : Graph Art Act} {ok : Bool} {o : Op Art Act} {s : Core Art Act} {P P' : Op Art Act → Nat}

theorem Safe.started_le (h : Safe g s P) (n : Node Art Act) : s.log.count (.started n) ≤ 1 := by
  have := h.proc n
  split at this <;> omega

/-- An artifact whose availability is about to be announced is not yet available, and is announced once. -/
theorem Safe.notify_fresh (h : Safe g s P) {a : Art} (hp : 0 < P (.notify a)) :
    s.log.count (.available a) = 0 ∧ P (.notify a) = 1 := by
  have h1 := h.notif a
  have h2 := h.run (source g a)
  have h3 := h.started_le (source g a)
  omega

theorem Safe.available_le (h : Safe g s P) (a : Art) : s.log.count (.available a) ≤ 1 := by
  have h1 := h.notif a
  have h2 := h.run (source g a)
  have h3 := h.started_le (source g a)
  omega

theorem countP_set (l : List Art) (f : Art → Bool) (a : Art) (hf : f a = false) :
    l.countP (fun d => !f d) = l.countP (fun d => !(decide (a = d) || f d)) + l.count a := by
  induction l with
  | nil => rfl
  | cons x t ih =>
    simp only [List.countP_cons, List.count_cons, ih]
    by_cases h : a = x
    · subst h; simp [hf]; omega
    · have : ¬ (x = a) := fun h' => h h'.symm
      simp [h, this]; omega

omit [DecidableEq Art] in
theorem countP_zero {l : List Art} {f : Art → Bool} (h : l.countP (fun d => !f d) = 0) : ∀ d ∈ l, f d = true := by
  intro d hd
  have := List.countP_eq_zero.1 h d hd
  simpa using this

theorem Safe.step (hg : g.OK) (h : Safe g s P) (hm : Moves g ok o s P P') :
    Safe g (exec g ok o s).core P' := by
  have key : ∀ x, P' x + (if x = o then 1 else 0) = P x + (news g ok o s).count x := hm.2
  refine ⟨fun n => ?_, fun n => ?_, fun a ha => ?_, fun a => ?_, fun a => ?_, fun c => ?_, fun c hc => ?_, ?_⟩
  · -- proc
    have h0 := h.proc n
    have h1 := key (.pushProc n)
    have h2 := key (.process n)
    rw [new_pushProc] at h1
    rw [new_process] at h2
    rw [exec_started, exec_queued]
    have e1 : (Op.pushProc n = o) ↔ (o = .pushProc n) := eq_comm
    have e2 : (Op.process n = o) ↔ (o = .process n) := eq_comm
    simp only [e1, e2] at h1 h2
    by_cases hq : o = .qpMark n
    · subst hq
      cases hqn : s.queued n <;> simp [hqn] at h0 h1 h2 ⊢ <;> omega
    · by_cases hp : o = .pushProc n
      · subst hp; simp at h1 h2 ⊢; omega
      · by_cases hr : o = .process n
        · subst hr; simp at h1 h2 ⊢; omega
        · simp [hq, hp, hr] at h1 h2 ⊢; omega
  · -- run
    have h0 := h.run n
    have h1 := key (.running n)
    rw [new_running] at h1
    rw [exec_started, exec_finished, exec_finished]
    have e1 : (Op.running n = o) ↔ (o = .running n) := eq_comm
    simp only [e1] at h1
    by_cases hq : o = .running n
    · subst hq; cases ok <;> simp at h1 ⊢ <;> omega
    · by_cases hp : o = .process n
      · subst hp; simp at h1 ⊢; omega
      · simp [hq, hp] at h1 ⊢; omega
  · -- leaf
    by_contra hb
    have nl := fun hx => hb (h.leaf a hx)
    have back : ∀ x, 0 < P' x → 0 < P x ∨ x ∈ news g ok o s := fun x => hm.back
    have p0 := hm.1
    rcases ha with ha | ha | ha | ha | ha | ha
    · rcases back _ ha with h1 | h1
      · exact nl (Or.inl h1)
      · have := mem_news h1
        simp at this
        exact hb this.2.1
    · rcases back _ ha with h1 | h1
      · exact nl (Or.inr (Or.inl h1))
      · have := mem_news h1
        simp at this
        rw [this.1] at p0
        exact nl (Or.inl p0)
    · rcases back _ ha with h1 | h1
      · exact nl (Or.inr (Or.inr (Or.inl h1)))
      · have := mem_news h1
        simp at this
        rw [this.1] at p0
        exact nl (Or.inr (Or.inl p0))
    · rcases back _ ha with h1 | h1
      · exact nl (Or.inr (Or.inr (Or.inr (Or.inl h1))))
      · have := mem_news h1
        simp at this
        rw [this.1] at p0
        exact nl (Or.inr (Or.inr (Or.inl p0)))
    · rcases back _ ha with h1 | h1
      · exact nl (Or.inr (Or.inr (Or.inr (Or.inr (Or.inl h1)))))
      · have := mem_news h1
        simp at this
        rw [this] at p0
        exact nl (Or.inr (Or.inr (Or.inr (Or.inl p0))))
    · have h1 := exec_started (g := g) (ok := ok) (o := o) (s := s) (.art a)
      have h2 := List.count_pos_iff.2 ha
      by_cases hp : o = .process (.art a)
      · subst hp
        exact nl (Or.inr (Or.inr (Or.inr (Or.inr (Or.inl p0)))))
      · rw [if_neg hp] at h1
        exact nl (Or.inr (Or.inr (Or.inr (Or.inr (Or.inr (List.count_pos_iff.1 (by omega)))))))
  · -- notif
    have h0 := h.notif a
    have h1 := key (.notify a)
    rw [new_notify hg] at h1
    rw [exec_available, exec_finished]
    have e1 : (Op.notify a = o) ↔ (o = .notify a) := eq_comm
    simp only [e1] at h1
    by_cases hq : o = .notify a
    · subst hq; simp at h1 ⊢; omega
    · by_cases hr : o = .running (source g a)
      · subst hr; cases ok <;> simp at h1 ⊢ <;> omega
      · by_cases hr' : o = .running (.art a)
        · -- artifacts with a builder are never processed
          exfalso
          subst hr'
          have hs : .started (.art a) ∈ s.log := by
            have := h.run (.art a)
            have := hm.1
            exact List.count_pos_iff.1 (by omega)
          have hb := h.leaf a (Or.inr (Or.inr (Or.inr (Or.inr (Or.inr hs)))))
          exact hr (by rw [source_art.2 ⟨hb, rfl⟩])
        · simp [hq, hr, hr'] at h1 ⊢; omega
  · -- avail
    rw [exec_avail, ← List.count_pos_iff, exec_available]
    have h0 := h.avail a
    rw [← List.count_pos_iff] at h0
    by_cases hq : o = .notify a
    · simp [hq]
    · simp only [hq, decide_false, Bool.false_or, if_false, Nat.add_zero]
      exact h0
  · -- count
    have h0 := h.count c
    have h1 := key (.dec c)
    rw [exec_count]
    have e1 : (Op.dec c = o) ↔ (o = .dec c) := eq_comm
    simp only [e1] at h1
    by_cases hn : ∃ a, o = .notify a
    · obtain ⟨a, rfl⟩ := hn
      rw [new_dec_notify, hg.consumers] at h1
      have hf : s.avail a = false := by
        have := (h.notify_fresh hm.1).1
        rw [List.count_eq_zero] at this
        cases hx : s.avail a with
        | false => rfl
        | true => exact absurd ((h.avail a).1 hx) this
      have h2 := countP_set (g.deps c) s.avail a hf
      simp only [exec_avail, Op.notify.injEq]
      simp only [reduceCtorEq, if_false, Nat.add_zero] at h1 ⊢
      omega
    · rw [new_dec_other c (fun a ha => hn ⟨a, ha⟩)] at h1
      have hav : ∀ d, (exec g ok o s).core.avail d = s.avail d := by
        intro d
        have : o ≠ .notify d := fun ha => hn ⟨d, ha⟩
        rw [exec_avail]
        simp [this]
      simp only [hav]
      by_cases hd : o = .dec c
      · simp [hd] at h1 ⊢; omega
      · simp [hd] at h1 ⊢; omega
  · -- ready
    have hz : s.count c = 0 ∧ o ≠ .dec c ∨ o = .dec c ∧ s.count c = 1 := by
      have nl := fun hx => h.ready c hx
      have p0 := hm.1
      have nd : s.count c = 0 → o ≠ .dec c := by
        intro h1 h2
        subst h2
        have := h.count c
        omega
      rcases hc with hc | hc | hc | hc | hc
      · rcases hm.back hc with h1 | h1
        · exact Or.inl ⟨nl (Or.inl h1), nd (nl (Or.inl h1))⟩
        · have := mem_news h1
          simp at this
          rcases this with h2 | h2
          · exact Or.inl ⟨h2.2, nd h2.2⟩
          · exact Or.inr h2
      · rcases hm.back hc with h1 | h1
        · exact Or.inl ⟨nl (Or.inr (Or.inl h1)), nd (nl (Or.inr (Or.inl h1)))⟩
        · have := mem_news h1
          simp at this
          rw [this.1] at p0
          exact Or.inl ⟨nl (Or.inl p0), nd (nl (Or.inl p0))⟩
      · rcases hm.back hc with h1 | h1
        · exact Or.inl ⟨nl (Or.inr (Or.inr (Or.inl h1))), nd (nl (Or.inr (Or.inr (Or.inl h1))))⟩
        · have := mem_news h1
          simp at this
          rw [this.1] at p0
          exact Or.inl ⟨nl (Or.inr (Or.inl p0)), nd (nl (Or.inr (Or.inl p0)))⟩
      · rcases hm.back hc with h1 | h1
        · exact Or.inl ⟨nl (Or.inr (Or.inr (Or.inr (Or.inl h1)))), nd (nl (Or.inr (Or.inr (Or.inr (Or.inl h1)))))⟩
        · have := mem_news h1
          simp at this
          rw [this.1] at p0
          exact Or.inl ⟨nl (Or.inr (Or.inr (Or.inl p0))), nd (nl (Or.inr (Or.inr (Or.inl p0))))⟩
      · rcases hm.back hc with h1 | h1
        · exact Or.inl ⟨nl (Or.inr (Or.inr (Or.inr (Or.inr h1)))), nd (nl (Or.inr (Or.inr (Or.inr (Or.inr h1)))))⟩
        · have := mem_news h1
          simp at this
          rw [this] at p0
          exact Or.inl ⟨nl (Or.inr (Or.inr (Or.inr (Or.inl p0)))), nd (nl (Or.inr (Or.inr (Or.inr (Or.inl p0)))))⟩
    rw [exec_count]
    rcases hz with ⟨h1, h2⟩ | ⟨h1, h2⟩
    · simp [h1, h2]
    · simp [h1, h2]
  · -- order
    rcases exec_log (g := g) (ok := ok) (o := o) (s := s) with hl | ⟨n, rfl, hl⟩ | ⟨n, rfl, hl⟩ | ⟨a, rfl, hl⟩
    · rw [hl]; exact h.order
    · rw [hl]
      refine ⟨h.order, ?_⟩
      cases n with
      | art a => exact h.leaf a (Or.inr (Or.inr (Or.inr (Or.inr (Or.inl hm.1)))))
      | act c =>
        intro d hd
        have h1 := h.ready c (Or.inr (Or.inr (Or.inr (Or.inr hm.1))))
        have h2 := h.count c
        exact (h.avail d).1 (countP_zero (by omega) d hd)
    · rw [hl]
      refine ⟨h.order, ?_⟩
      have := h.run n
      have := hm.1
      exact List.count_pos_iff.1 (by omega)
    · rw [hl]
      refine ⟨h.order, ?_⟩
      have := h.notif a
      have := hm.1
      exact List.count_pos_iff.1 (by omega)

end

/-! ## Losing queued tasks -/

/-- Only tasks visiting or processing a node get queued. -/
def IsTask : Op Art Act → Prop
  | .visit _ => True
  | .process _ => True
  | _ => False

theorem pushed_tasks {g : Graph Art Act} {ok : Bool} {o x : Op Art Act} {s : Core Art Act}
    (h : x ∈ (exec g ok o s).pushed) : IsTask x := by
  cases o with
  | visit m => cases m <;> simp [exec] at h
  | pushVisit n => simp [exec] at h; subst h; trivial
  | pushProc n => simp [exec] at h; subst h; trivial
  | _ => simp [exec] at h

theorem queue_tasks {g : Graph Art Act} {ts : List Art} {s : State Art Act} (h : Reachable g ts s) :
    ∀ x ∈ s.queue, IsTask x := by
  induction h with
  | start => intro x hx; simp [start] at hx
  | step _ hs ih =>
    cases hs with
    | op core queue pre post o rest ok =>
      intro x hx
      rcases List.mem_append.1 hx with h1 | h1
      · exact ih x h1
      · exact pushed_tasks h1
    | take core pre post o threads =>
      intro x hx
      exact ih x (by simp at hx ⊢; tauto)
    | lose core pre post o threads hd =>
      intro x hx
      exact ih x (by simp at hx ⊢; tauto)

/-- The steps of a traversal, seen as changes of the shared state and of what is pending. -/
theorem reach_moves {g : Graph Art Act} {ts : List Art} {s s' : State Art Act} (hr : Reachable g ts s)
    (h : Step g s s') :
    (∃ ok o, s'.core = (exec g ok o s.core).core ∧ Moves g ok o s.core s.pend s'.pend) ∨
    (s'.core = s.core ∧ s'.pend = s.pend) ∨
    (s'.core = s.core ∧ s.core.down = true ∧ (∀ x, s'.pend x ≤ s.pend x) ∧
      ∀ x, ¬ IsTask x → s'.pend x = s.pend x) := by
  have hq := queue_tasks hr
  rcases step_moves h with h1 | h1 | h1
  · exact Or.inl h1
  · exact Or.inr (Or.inl h1)
  · obtain ⟨hc, hd, o, ho, hp⟩ := h1
    refine Or.inr (Or.inr ⟨hc, hd, fun x => ?_, fun x hx => ?_⟩)
    · have := hp x; omega
    · have := hp x
      have hne : x ≠ o := fun he => hx (he ▸ hq o ho)
      rw [if_neg hne] at this
      omega

theorem Safe.lose {g : Graph Art Act} {s : Core Art Act} {P P' : Op Art Act → Nat} (h : Safe g s P)
    (hle : ∀ x, P' x ≤ P x) (heq : ∀ x, ¬ IsTask x → P' x = P x) : Safe g s P' := by
  have e : ∀ x, ¬ IsTask x → P x = P' x := fun x hx => (heq x hx).symm
  refine ⟨fun n => ?_, fun n => ?_, fun a ha => h.leaf a ?_, fun a => ?_, h.avail, fun c => ?_,
    fun c hc => h.ready c ?_, h.order⟩
  · have h0 := h.proc n
    have h1 := hle (.pushProc n)
    have h2 := hle (.process n)
    omega
  · rw [heq _ id]; exact h.run n
  · exact ha.imp (fun x => Nat.lt_of_lt_of_le x (hle _)) (Or.imp (fun x => Nat.lt_of_lt_of_le x (hle _))
      (Or.imp (fun x => Nat.lt_of_lt_of_le x (hle _)) (Or.imp (fun x => Nat.lt_of_lt_of_le x (hle _))
      (Or.imp (fun x => Nat.lt_of_lt_of_le x (hle _)) id))))
  · rw [heq _ id]; exact h.notif a
  · rw [heq _ id]; exact h.count c
  · exact hc.imp (fun x => Nat.lt_of_lt_of_le x (hle _)) (Or.imp (fun x => Nat.lt_of_lt_of_le x (hle _))
      (Or.imp (fun x => Nat.lt_of_lt_of_le x (hle _)) (Or.imp (fun x => Nat.lt_of_lt_of_le x (hle _))
      (fun x => Nat.lt_of_lt_of_le x (hle _)))))

/-! ## The start -/

omit [DecidableEq Art] [DecidableEq Act] in
/-- What the calling thread does: requesting known targets, and failing on an unknown one. -/
theorem mem_mainProg {g : Graph Art Act} {ts : List Art} {x : Op Art Act} (h : x ∈ mainProg g ts) :
    (∃ t ∈ ts, x = .queueVisit (.art t)) ∨ x = .setFailed ∧ ∃ t ∈ ts, g.known t = false := by
  induction ts with
  | nil => simp [mainProg] at h
  | cons t ts ih =>
    unfold mainProg at h
    by_cases hk : g.known t = true
    · rw [if_pos hk] at h
      rcases List.mem_cons.1 h with h1 | h1
      · exact Or.inl ⟨t, by simp, h1⟩
      · rcases ih h1 with ⟨u, hu, he⟩ | ⟨he, u, hu, hf⟩
        · exact Or.inl ⟨u, by simp [hu], he⟩
        · exact Or.inr ⟨he, u, by simp [hu], hf⟩
    · rw [if_neg hk] at h
      exact Or.inr ⟨by simpa using h, t, by simp, by simpa using hk⟩

theorem start_pend {g : Graph Art Act} {ts : List Art} {x : Op Art Act} :
    (start g ts).pend x = (mainProg g ts).count x := by
  simp [State.pend, start]

theorem start_pend_zero {g : Graph Art Act} {ts : List Art} {x : Op Art Act} (h1 : ∀ n, x ≠ .queueVisit n)
    (h2 : x ≠ .setFailed) : (start g ts).pend x = 0 := by
  rw [start_pend, List.count_eq_zero]
  intro h
  rcases mem_mainProg h with ⟨t, -, he⟩ | ⟨he, -⟩
  · exact h1 _ he
  · exact h2 he

theorem safe_start {g : Graph Art Act} (ts : List Art) : Safe g (start g ts).core (start g ts).pend := by
  have z : ∀ x : Op Art Act, (∀ n, x ≠ .queueVisit n) → x ≠ .setFailed → (start g ts).pend x = 0 :=
    fun x => start_pend_zero
  refine ⟨fun n => ?_, fun n => ?_, fun a ha => ?_, fun a => ?_, fun a => ?_, fun c => ?_, fun c hc => ?_, trivial⟩
  · rw [z _ (by simp) (by simp), z _ (by simp) (by simp)]; simp [start]
  · rw [z _ (by simp) (by simp)]; simp [start]
  · rw [z _ (by simp) (by simp), z _ (by simp) (by simp), z _ (by simp) (by simp), z _ (by simp) (by simp),
      z _ (by simp) (by simp)] at ha
    simp [start] at ha
  · rw [z _ (by simp) (by simp)]; simp [start]
  · simp [start]
  · rw [z _ (by simp) (by simp)]; simp [start]
  · rw [z _ (by simp) (by simp), z _ (by simp) (by simp), z _ (by simp) (by simp), z _ (by simp) (by simp),
      z _ (by simp) (by simp)] at hc
    simp at hc

theorem safe {g : Graph Art Act} (hg : g.OK) {ts : List Art} {s : State Art Act} (h : Reachable g ts s) :
    Safe g s.core s.pend := by
  induction h with
  | start => exact safe_start ts
  | step hr hs ih =>
    rcases reach_moves hr hs with ⟨ok, o, hc, hm⟩ | ⟨hc, hp⟩ | ⟨hc, -, hle, heq⟩
    · rw [hc]; exact ih.step hg hm
    · rw [hc, hp]; exact ih
    · rw [hc]; exact ih.lose hle heq

/-! ## Only what is needed -/

/-- The node an operation works for, if it only may be done for needed nodes. -/
def Op.node : Op Art Act → Option (Node Art Act)
  | .queueVisit n => some n
  | .markDisc n => some n
  | .pushVisit n => some n
  | .visit n => some n
  | .checkAvail a => some (.art a)
  | .checkDep a => some (.art a)
  | .checkReady c => some (.act c)
  | .qpMark n => some n
  | .pushProc n => some n
  | .process n => some n
  | .running n => some n
  | _ => none

structure Needed (g : Graph Art Act) (ts : List Art) (s : Core Art Act) (P : Op Art Act → Nat) : Prop where
  ops : ∀ x n, 0 < P x → x.node = some n → Cone g ts n
  req : ∀ n, s.req n = true → Cone g ts n
  started : ∀ n, .started n ∈ s.log → Cone g ts n

theorem Needed.step {g : Graph Art Act} {ts : List Art} {ok : Bool} {o : Op Art Act} {s : Core Art Act}
    {P P' : Op Art Act → Nat} (h : Needed g ts s P) (hm : Moves g ok o s P P') :
    Needed g ts (exec g ok o s).core P' := by
  have p0 := hm.1
  refine ⟨fun x n hx hn => ?_, fun n hn => ?_, fun n hn => ?_⟩
  · rcases hm.back hx with h1 | h1
    · exact h.ops x n h1 hn
    · have ho := fun m hm => h.ops o m p0 hm
      rcases mem_news h1 with ⟨m, rfl, rfl, -⟩ | ⟨m, rfl, rfl, -⟩ | ⟨m, rfl, rfl⟩ | ⟨a, rfl, rfl⟩ |
        ⟨a, c, rfl, rfl, hb, -⟩ | ⟨a, rfl, rfl, -⟩ | ⟨c, rfl, hc⟩ | ⟨d, rfl, rfl, -⟩ | ⟨c, rfl, rfl, -⟩ |
        ⟨m, rfl, rfl, -⟩ | ⟨m, rfl, rfl, hr⟩ | ⟨m, rfl, rfl, -⟩ | ⟨m, rfl, rfl⟩ | ⟨m, rfl, rfl⟩ |
        ⟨a, rfl, rfl, -⟩ | ⟨c, a, rfl, rfl, -⟩ | ⟨m, rfl, rfl, -⟩ | ⟨a, c, rfl, rfl, -⟩ | ⟨c, rfl, rfl, -⟩ |
        ⟨rfl, rfl⟩
      all_goals first | (simp [Op.node] at hn; done) | skip
      all_goals first | exact ho n hn | skip
      · have : n = .act c := by simpa [Op.node] using hn.symm
        subst this
        exact .builder (ho _ rfl) hb
      · rcases hc with ⟨d, hd, rfl⟩ | rfl
        · have : n = .art d := by simpa [Op.node] using hn.symm
          subst this
          exact .dep (ho _ rfl) hd
        · exact ho n hn
      · have : n = m := by simpa [Op.node] using hn.symm
        subst this
        exact h.req n hr
  · rw [exec_req] at hn
    rcases Bool.or_eq_true_iff.1 hn with h1 | h1
    · have : o = .visit n := by simpa using h1
      subst this
      exact h.ops _ n p0 rfl
    · exact h.req n h1
  · have h1 := exec_started (g := g) (ok := ok) (o := o) (s := s) n
    have h2 := List.count_pos_iff.2 hn
    by_cases hp : o = .process n
    · subst hp
      exact h.ops _ n p0 rfl
    · rw [if_neg hp] at h1
      exact h.started n (List.count_pos_iff.1 (by omega))

theorem needed {g : Graph Art Act} {ts : List Art} {s : State Art Act} (h : Reachable g ts s) :
    Needed g ts s.core s.pend := by
  induction h with
  | start =>
    refine ⟨fun x n hx hn => ?_, fun n hn => ?_, fun n hn => ?_⟩
    · rw [start_pend, List.count_pos_iff] at hx
      rcases mem_mainProg hx with ⟨t, ht, rfl⟩ | ⟨rfl, -⟩
      · have : n = .art t := by simpa [Op.node] using hn.symm
        subst this
        exact .target ht
      · simp [Op.node] at hn
    · simp [start] at hn
    · simp [start] at hn
  | step hr hs ih =>
    rcases reach_moves hr hs with ⟨ok, o, hc, hm⟩ | ⟨hc, hp⟩ | ⟨hc, -, hle, -⟩
    · rw [hc]; exact ih.step hm
    · rw [hc, hp]; exact ih
    · rw [hc]
      exact ⟨fun x n hx hn => ih.ops x n (Nat.lt_of_lt_of_le hx (hle x)) hn, ih.req, ih.started⟩

end Verif.Dag
