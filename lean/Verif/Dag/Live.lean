import Verif.Dag.Safety

/-!
# Traversal: no wake-up is lost
-/

namespace Verif.Dag

variable {Art Act : Type} [DecidableEq Art] [DecidableEq Act]

/-- A visit of the node is under way, or was started. -/
def Want (s : Core Art Act) (P : Op Art Act → Nat) (n : Node Art Act) : Prop :=
  0 < P (.queueVisit n) ∨ 0 < P (.markDisc n) ∨ s.disc n = true

/-- Processing of the node is under way, or was queued. -/
def PWant (s : Core Art Act) (P : Op Art Act → Nat) (n : Node Art Act) : Prop :=
  0 < P (.queueProc n) ∨ 0 < P (.qpReq n) ∨ 0 < P (.qpMark n) ∨ s.queued n = true

/-- No failure so far. -/
def Fine (s : Core Art Act) (P : Op Art Act → Nat) : Prop := s.failed = false ∧ P .setFailed = 0

structure Alive (g : Graph Art Act) (ts : List Art) (s : Core Art Act) (P : Op Art Act → Nat) : Prop where
  targets : ∀ t ∈ ts, g.known t = true ∧ Want s P (.art t)
  visited : ∀ n, s.disc n = true → 0 < P (.pushVisit n) ∨ 0 < P (.visit n) ∨ s.req n = true
  art : ∀ a, s.req (.art a) = true → 0 < P (.checkAvail a) ∨ s.avail a = true ∨
    (∃ c, g.builder a = some c ∧ Want s P (.act c)) ∨ (g.builder a = none ∧ PWant s P (.art a))
  deps : ∀ c, s.req (.act c) = true → ∀ d ∈ g.deps c, 0 < P (.checkDep d) ∨ s.avail d = true ∨ Want s P (.art d)
  ready : ∀ c, s.req (.act c) = true → s.count c = 0 → 0 < P (.checkReady c) ∨ PWant s P (.act c)
  done : ∀ n, s.queued n = true → 0 < P (.pushProc n) ∨ 0 < P (.process n) ∨ 0 < P (.running n) ∨
    .finished n true ∈ s.log

section
variable {g : Graph Art Act} {ok : Bool} {o : Op Art Act} {s : Core Art Act} {P P' : Op Art Act → Nat}

theorem Fine.back (hm : Moves g ok o s P P') (h : Fine (exec g ok o s).core P') : Fine s P := by
  obtain ⟨h1, h2⟩ := h
  rw [exec_failed] at h1
  obtain ⟨h3, h4⟩ := Bool.or_eq_false_iff.1 h1
  refine ⟨h4, ?_⟩
  by_contra hne
  rcases hm.keep' (x := .setFailed) (by omega) with h5 | h5
  · omega
  · simp [← h5] at h3

theorem Want.step (hm : Moves g ok o s P P') (hf : s.failed = false) {n : Node Art Act} (h : Want s P n) :
    Want (exec g ok o s).core P' n := by
  rcases h with h | h | h
  · rcases hm.keep' h with h1 | h1
    · exact Or.inl h1
    · exact Or.inr (Or.inl (hm.got (by subst h1; simp [news, exec, hf])))
  · rcases hm.keep' h with h1 | h1
    · exact Or.inr (Or.inl h1)
    · exact Or.inr (Or.inr (by rw [exec_disc]; simp [h1]))
  · exact Or.inr (Or.inr (by rw [exec_disc]; simp [h]))

theorem PWant.step (hm : Moves g ok o s P P') (hf : s.failed = false) {n : Node Art Act} (hr : s.req n = true)
    (h : PWant s P n) : PWant (exec g ok o s).core P' n := by
  rcases h with h | h | h | h
  · rcases hm.keep' h with h1 | h1
    · exact Or.inl h1
    · exact Or.inr (Or.inl (hm.got (by subst h1; simp [news, exec, hf])))
  · rcases hm.keep' h with h1 | h1
    · exact Or.inr (Or.inl h1)
    · exact Or.inr (Or.inr (Or.inl (hm.got (by subst h1; simp [news, exec, hr]))))
  · rcases hm.keep' h with h1 | h1
    · exact Or.inr (Or.inr (Or.inl h1))
    · exact Or.inr (Or.inr (Or.inr (by rw [exec_queued]; simp [h1])))
  · exact Or.inr (Or.inr (Or.inr (by rw [exec_queued]; simp [h])))

theorem Alive.step {ts : List Art} (h : Alive g ts s P) (hm : Moves g ok o s P P')
    (hF : Fine (exec g ok o s).core P') : Alive g ts (exec g ok o s).core P' := by
  have hf : s.failed = false := (hF.back hm).1
  refine ⟨fun t ht => ?_, fun n hn => ?_, fun a ha => ?_, fun c hc d hd => ?_, fun c hc hz => ?_, fun n hn => ?_⟩
  · exact ⟨(h.targets t ht).1, (h.targets t ht).2.step hm hf⟩
  · rw [exec_disc] at hn
    rw [exec_req]
    by_cases ho : o = .markDisc n
    · subst ho
      cases hdn : s.disc n with
      | false => exact Or.inl (hm.got (by simp [news, exec, hdn]))
      | true =>
        rcases h.visited n hdn with h1 | h1 | h1
        · exact Or.inl (hm.keep h1 (by simp))
        · exact Or.inr (Or.inl (hm.keep h1 (by simp)))
        · exact Or.inr (Or.inr (by simp [h1]))
    · have hdn : s.disc n = true := by simpa [ho] using hn
      rcases h.visited n hdn with h1 | h1 | h1
      · rcases hm.keep' h1 with h2 | h2
        · exact Or.inl h2
        · exact Or.inr (Or.inl (hm.got (by subst h2; simp [news, exec])))
      · rcases hm.keep' h1 with h2 | h2
        · exact Or.inr (Or.inl h2)
        · exact Or.inr (Or.inr (by simp [h2]))
      · exact Or.inr (Or.inr (by simp [h1]))
  · rw [exec_req] at ha
    by_cases ho : o = .visit (.art a)
    · subst ho
      exact Or.inl (hm.got (by simp [news, exec]))
    · have hr : s.req (.art a) = true := by simpa [ho] using ha
      rcases h.art a hr with h1 | h1 | ⟨c, hb, hw⟩ | ⟨hb, hw⟩
      · rcases hm.keep' h1 with h2 | h2
        · exact Or.inl h2
        · subst h2
          cases hav : s.avail a with
          | true => exact Or.inr (Or.inl (by rw [exec_avail]; simp [hav]))
          | false =>
            cases hb : g.builder a with
            | none => exact Or.inr (Or.inr (Or.inr ⟨rfl, Or.inl (hm.got (by simp [news, exec, hav, hb]))⟩))
            | some c => exact Or.inr (Or.inr (Or.inl ⟨c, rfl, Or.inl (hm.got (by simp [news, exec, hav, hb]))⟩))
      · exact Or.inr (Or.inl (by rw [exec_avail]; simp [h1]))
      · exact Or.inr (Or.inr (Or.inl ⟨c, hb, hw.step hm hf⟩))
      · exact Or.inr (Or.inr (Or.inr ⟨hb, hw.step hm hf hr⟩))
  · rw [exec_req] at hc
    by_cases ho : o = .visit (.act c)
    · subst ho
      exact Or.inl (hm.got (by simp [news, exec, hd]))
    · have hr : s.req (.act c) = true := by simpa [ho] using hc
      rcases h.deps c hr d hd with h1 | h1 | h1
      · rcases hm.keep' h1 with h2 | h2
        · exact Or.inl h2
        · subst h2
          cases hav : s.avail d with
          | true => exact Or.inr (Or.inl (by rw [exec_avail]; simp [hav]))
          | false => exact Or.inr (Or.inr (Or.inl (hm.got (by simp [news, exec, hav]))))
      · exact Or.inr (Or.inl (by rw [exec_avail]; simp [h1]))
      · exact Or.inr (Or.inr (h1.step hm hf))
  · rw [exec_req] at hc
    by_cases ho : o = .visit (.act c)
    · subst ho
      exact Or.inl (hm.got (by simp [news, exec]))
    · have hr : s.req (.act c) = true := by simpa [ho] using hc
      rw [exec_count] at hz
      by_cases hd : o = .dec c
      · subst hd
        simp at hz
        exact Or.inr (Or.inl (hm.got (by simp [news, exec]; omega)))
      · have hz' : s.count c = 0 := by simpa [hd] using hz
        rcases h.ready c hr hz' with h1 | h1
        · rcases hm.keep' h1 with h2 | h2
          · exact Or.inl h2
          · exact Or.inr (Or.inl (hm.got (by subst h2; simp [news, exec, hz'])))
        · exact Or.inr (h1.step hm hf hr)
  · rw [exec_queued] at hn
    by_cases ho : o = .qpMark n ∧ s.queued n = false
    · obtain ⟨rfl, hq⟩ := ho
      exact Or.inl (hm.got (by simp [news, exec, hq]))
    · have hq : s.queued n = true := by
        cases hx : s.queued n with
        | true => rfl
        | false => simp [hx] at hn ho; exact absurd hn ho
      rcases h.done n hq with h1 | h1 | h1 | h1
      · rcases hm.keep' h1 with h2 | h2
        · exact Or.inl h2
        · exact Or.inr (Or.inl (hm.got (by subst h2; simp [news, exec])))
      · rcases hm.keep' h1 with h2 | h2
        · exact Or.inr (Or.inl h2)
        · exact Or.inr (Or.inr (Or.inl (hm.got (by subst h2; simp [news, exec]))))
      · rcases hm.keep' h1 with h2 | h2
        · exact Or.inr (Or.inr (Or.inl h2))
        · subst h2
          cases ok with
          | true => exact Or.inr (Or.inr (Or.inr (by simp [exec])))
          | false =>
            have : 0 < P' .setFailed := hm.got (by simp [news, exec])
            have := hF.2
            omega
      · refine Or.inr (Or.inr (Or.inr ?_))
        rw [← List.count_pos_iff] at h1 ⊢
        rw [exec_finished]
        omega

/-- Tasks are only lost after a failure. -/
theorem down_step (h : 0 < P .shutdown ∨ s.down = true → s.failed = true) (hm : Moves g ok o s P P') :
    0 < P' .shutdown ∨ (exec g ok o s).core.down = true → (exec g ok o s).core.failed = true := by
  rw [exec_failed, exec_down]
  intro h1
  by_cases ho : o = .setFailed
  · simp [ho]
  · simp only [ho, decide_false, Bool.false_or]
    rcases h1 with h1 | h1
    · rcases hm.back h1 with h2 | h2
      · exact h (Or.inl h2)
      · have := mem_news h2
        simp [ho] at this
    · rcases Bool.or_eq_true_iff.1 h1 with h2 | h2
      · have : o = .shutdown := by simpa using h2
        subst this
        exact h (Or.inl hm.1)
      · exact h (Or.inr h2)

end

theorem down {g : Graph Art Act} {ts : List Art} {s : State Art Act} (h : Reachable g ts s) :
    0 < s.pend .shutdown ∨ s.core.down = true → s.core.failed = true := by
  induction h with
  | start => intro h; rw [start_pend_zero (by simp) (by simp)] at h; simp [start] at h
  | step hr hs ih =>
    rcases reach_moves hr hs with ⟨ok, o, hc, hm⟩ | ⟨hc, hp⟩ | ⟨hc, -, hle, -⟩
    · rw [hc]; exact down_step ih hm
    · rw [hc, hp]; exact ih
    · rw [hc]
      intro h1
      exact ih (h1.imp (fun x => Nat.lt_of_lt_of_le x (hle _)) id)

omit [DecidableEq Art] [DecidableEq Act] in
theorem mainProg_mem {g : Graph Art Act} {ts : List Art} (h : Op.setFailed ∉ mainProg g ts) :
    ∀ t ∈ ts, g.known t = true ∧ Op.queueVisit (.art t) ∈ mainProg g ts := by
  induction ts with
  | nil => simp
  | cons u ts ih =>
    unfold mainProg at h ⊢
    by_cases hk : g.known u = true
    · rw [if_pos hk] at h ⊢
      intro t ht
      rcases List.mem_cons.1 ht with rfl | h1
      · exact ⟨hk, by simp⟩
      · obtain ⟨h2, h3⟩ := ih (fun hx => h (List.mem_cons_of_mem _ hx)) t h1
        exact ⟨h2, List.mem_cons_of_mem _ h3⟩
    · rw [if_neg hk] at h
      exact absurd (by simp) h

theorem alive {g : Graph Art Act} {ts : List Art} {s : State Art Act} (h : Reachable g ts s)
    (hF : Fine s.core s.pend) : Alive g ts s.core s.pend := by
  induction h with
  | start =>
    have h0 : Op.setFailed ∉ mainProg g ts := by
      have := hF.2
      rwa [start_pend, List.count_eq_zero] at this
    refine ⟨fun t ht => ?_, ?_, ?_, ?_, ?_, ?_⟩
    · obtain ⟨h1, h2⟩ := mainProg_mem h0 t ht
      exact ⟨h1, Or.inl (by rw [start_pend]; exact List.count_pos_iff.2 h2)⟩
    all_goals simp [start]
  | step hr hs ih =>
    rcases reach_moves hr hs with ⟨ok, o, hc, hm⟩ | ⟨hc, hp⟩ | ⟨hc, hd, -, -⟩
    · rw [hc] at hF ⊢
      exact (ih (hF.back hm)).step hm hF
    · rw [hc, hp] at hF ⊢; exact ih hF
    · have := down hr (Or.inr hd)
      rw [hc] at hF
      rw [hF.1] at this
      cases this

/-- A failure is recorded exactly if some processing failed or an unknown artifact was requested. -/
theorem failure {g : Graph Art Act} {ts : List Art} {s : State Art Act} (h : Reachable g ts s) :
    (¬ Fine s.core s.pend) ↔ ((∃ n, .finished n false ∈ s.core.log) ∨ ∃ t ∈ ts, g.known t = false) := by
  induction h with
  | start =>
    constructor
    · intro h
      right
      have : (start g ts).pend .setFailed ≠ 0 := fun h0 => h ⟨rfl, h0⟩
      rw [start_pend] at this
      have h1 := List.count_pos_iff.1 (Nat.pos_of_ne_zero this)
      rcases mem_mainProg h1 with ⟨t, -, he⟩ | ⟨-, ht⟩
      · cases he
      · exact ht
    · rintro (⟨n, hn⟩ | ⟨t, ht, hk⟩) hF
      · simp [start] at hn
      · have h0 : Op.setFailed ∉ mainProg g ts := by
          have := hF.2
          rwa [start_pend, List.count_eq_zero] at this
        rw [(mainProg_mem h0 t ht).1] at hk
        cases hk
  | step hr hs ih =>
    rename_i s s'
    rcases reach_moves hr hs with ⟨ok, o, hc, hm⟩ | ⟨hc, hp⟩ | ⟨hc, hd, -, -⟩
    · rw [hc]
      have hfin : (∃ n, Event.finished n false ∈ (exec g ok o s.core).core.log) ↔
          (∃ n, .finished n false ∈ s.core.log) ∨ ∃ n, o = .running n ∧ ok = false := by
        constructor
        · rintro ⟨n, hn⟩
          rw [← List.count_pos_iff, exec_finished] at hn
          by_cases h1 : o = .running n ∧ ok = false
          · exact Or.inr ⟨n, h1⟩
          · rw [if_neg h1] at hn
            exact Or.inl ⟨n, List.count_pos_iff.1 (by omega)⟩
        · rintro (⟨n, hn⟩ | ⟨n, h1⟩)
          · refine ⟨n, ?_⟩
            rw [← List.count_pos_iff] at hn ⊢
            rw [exec_finished]; omega
          · refine ⟨n, ?_⟩
            rw [← List.count_pos_iff, exec_finished, if_pos h1]; omega
      rw [hfin, or_right_comm, ← ih]
      constructor
      · intro h1
        by_cases h2 : ¬ Fine s.core s.pend
        · exact Or.inl h2
        · right
          push Not at h2
          have ho : o ≠ .setFailed := by
            rintro rfl
            have h3 := hm.1
            have h4 := h2.2
            omega
          by_contra h3
          refine h1 ⟨?_, ?_⟩
          · rw [exec_failed]; simp [ho, h2.1]
          · by_contra h4
            rcases hm.back (x := .setFailed) (by omega) with h5 | h5
            · have := h2.2; omega
            · have h6 := mem_news h5
              simp at h6
              exact h3 (by obtain ⟨⟨n, hn⟩, h7⟩ := h6; exact ⟨n, hn, h7⟩)
      · rintro (h1 | ⟨n, rfl, rfl⟩) h2
        · exact h1 (h2.back hm)
        · have : 0 < s'.pend .setFailed := hm.got (by simp [news, exec])
          have := h2.2
          omega
    · rw [hc, hp]; exact ih
    · have hf := down hr (Or.inr hd)
      rw [hc]
      have h1 : ¬ Fine s.core s.pend := fun h2 => by rw [h2.1] at hf; cases hf
      have h3 : ¬ Fine s.core s'.pend := fun h2 => by rw [h2.1] at hf; cases hf
      exact ⟨fun _ => ih.1 h1, fun _ => h3⟩

end Verif.Dag
