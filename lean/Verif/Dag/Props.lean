import Verif.Dag.Live

/-!
# Properties of the traversal

C22: every action is started at most once, and only after all its inputs are available.
C23: when the traversal ends without failure, everything needed was built.
C24: nothing else is built.
-/

namespace Verif.Dag

variable {Art Act : Type} [DecidableEq Art] [DecidableEq Act]
variable {g : Graph Art Act} {ts : List Art} {s : State Art Act}

/-! ## C22 -/

/-- At any time every node has been handed to the runner at most once. -/
theorem C22_at_most_once (hg : g.OK) (h : Reachable g ts s) (n : Node Art Act) :
    s.core.log.count (.started n) ≤ 1 := (safe hg h).started_le n

/-- Every artifact is announced as available at most once. -/
theorem C22_available_once (hg : g.OK) (h : Reachable g ts s) (a : Art) :
    s.core.log.count (.available a) ≤ 1 := (safe hg h).available_le a

omit [DecidableEq Art] [DecidableEq Act] in
theorem ordered_split {l l₁ l₂ : List (Event Art Act)} {e : Event Art Act} (h : Ordered g l)
    (hl : l = l₁ ++ e :: l₂) : Ordered g (e :: l₂) := by
  subst hl
  induction l₁ with
  | nil => exact h
  | cons x t ih => exact ih h.1

/-- Whenever an action was started, all its inputs had been announced before, and before that what builds each input
had been run successfully. -/
theorem C22_after_inputs (hg : g.OK) (h : Reachable g ts s) {c : Act} {later before : List (Event Art Act)}
    (hl : s.core.log = later ++ .started (.act c) :: before) :
    ∀ d ∈ g.deps c, .available d ∈ before ∧ .finished (source g d) true ∈ before ∧
      .started (source g d) ∈ before := by
  have ho := ordered_split (safe hg h).order hl
  intro d hd
  have h1 := ho.2 d hd
  obtain ⟨l₁, l₂, h2⟩ := List.append_of_mem h1
  have h3 := ordered_split ho.1 h2
  have h4 := h3.2
  obtain ⟨l₃, l₄, h5⟩ := List.append_of_mem h4
  have h6 := ordered_split h3.1 h5
  have h7 := h6.2
  refine ⟨h1, ?_, ?_⟩
  · rw [h2]; simp [h4]
  · rw [h2, h5]; simp [h7]

/-- Artifacts that some action builds are not handed to the runner themselves. -/
theorem C22_sources_only (hg : g.OK) (h : Reachable g ts s) {a : Art} (hs : .started (.art a) ∈ s.core.log) :
    g.builder a = none :=
  (safe hg h).leaf a (Or.inr (Or.inr (Or.inr (Or.inr (Or.inr hs)))))

/-! ## C24 -/

/-- Only nodes some target transitively depends on are handed to the runner. -/
theorem C24_only_needed (h : Reachable g ts s) {n : Node Art Act} (hs : .started n ∈ s.core.log) :
    Cone g ts n := (needed h).started n hs

/-! ## C23 -/

omit [DecidableEq Art] [DecidableEq Act] in
theorem quiet_pend [DecidableEq Art] [DecidableEq Act] (hq : s.quiet) (x : Op Art Act) : s.pend x = 0 := by
  have : s.threads.flatten = [] := by
    rw [List.flatten_eq_nil_iff]
    exact hq.2
  simp [State.pend, hq.1, this]

/-- What holds for a node when it is done. -/
def Done (s : State Art Act) : Node Art Act → Prop
  | .art a => .available a ∈ s.core.log
  | .act c => .finished (.act c) true ∈ s.core.log

/-- A traversal that came to its end without a failure has made all targets available and has successfully run every
action they depend on; all targets are known. -/
theorem C23_complete (hg : g.OK) (ha : g.Acyclic) (h : Reachable g ts s) (hq : s.quiet)
    (hf : s.core.failed = false) : (∀ t ∈ ts, g.known t = true) ∧ ∀ n, Cone g ts n → Done s n := by
  have hp := quiet_pend hq
  have S := safe hg h
  have A := alive h ⟨hf, hp _⟩
  have want : ∀ n, Want s.core s.pend n → s.core.disc n = true := by
    intro n hn
    simpa [Want, hp] using hn
  have req : ∀ n, s.core.disc n = true → s.core.req n = true := by
    intro n hn
    simpa [hp] using A.visited n hn
  have done : ∀ n, PWant s.core s.pend n → .finished n true ∈ s.core.log := by
    intro n hn
    have h1 : s.core.queued n = true := by simpa [PWant, hp] using hn
    simpa [hp] using A.done n h1
  have avail : ∀ a, .finished (source g a) true ∈ s.core.log → s.core.avail a = true := by
    intro a hfin
    have h1 := S.notif a
    rw [hp] at h1
    have h2 := List.count_pos_iff.2 hfin
    exact (S.avail a).2 (List.count_pos_iff.1 (by omega))
  have art : ∀ a, (∀ c, g.builder a = some c → s.core.disc (.act c) = true → .finished (.act c) true ∈ s.core.log) →
      s.core.disc (.art a) = true → s.core.avail a = true := by
    intro a hb hd
    rcases A.art a (req _ hd) with h1 | h1 | ⟨c, h1, h2⟩ | ⟨h1, h2⟩
    · simp [hp] at h1
    · exact h1
    · exact avail a (by rw [source_act.2 h1]; exact hb c h1 (want _ h2))
    · exact avail a (by rw [source_art.2 ⟨h1, rfl⟩]; exact done _ h2)
  have act : ∀ c, s.core.disc (.act c) = true → .finished (.act c) true ∈ s.core.log := by
    intro c
    induction c using ha.induction with
    | h c ih =>
      intro hd
      have hr := req _ hd
      have hav : ∀ d ∈ g.deps c, s.core.avail d = true := by
        intro d hdd
        rcases A.deps c hr d hdd with h1 | h1 | h1
        · simp [hp] at h1
        · exact h1
        · exact art d (fun c' hb hdc => ih c' ⟨d, hdd, hb⟩ hdc) (want _ h1)
      have hz : s.core.count c = 0 := by
        have h1 := S.count c
        rw [hp] at h1
        have h2 : (g.deps c).countP (fun d => !s.core.avail d) = 0 := by
          rw [List.countP_eq_zero]
          intro d hdd
          simp [hav d hdd]
        rw [h1, h2]; rfl
      rcases A.ready c hr hz with h1 | h1
      · simp [hp] at h1
      · exact done _ h1
  refine ⟨fun t ht => (A.targets t ht).1, fun n hn => ?_⟩
  induction hn with
  | @target t ht => exact (S.avail t).1 (art t (fun c _ => act c) (want _ (A.targets t ht).2))
  | @builder a c _ hb ih =>
    have h1 : 0 < s.core.log.count (.available a) := List.count_pos_iff.2 ih
    have h2 := S.notif a
    rw [source_act.2 hb] at h2
    exact List.count_pos_iff.1 (by omega)
  | @dep c d _ hd ih =>
    have h1 : .started (.act c) ∈ s.core.log := by
      have h2 := S.run (.act c)
      have h3 : 0 < s.core.log.count (.finished (.act c) true) := List.count_pos_iff.2 ih
      exact List.count_pos_iff.1 (by omega)
    obtain ⟨l₁, l₂, hl⟩ := List.append_of_mem h1
    have := (C22_after_inputs hg h hl d hd).1
    show Event.available d ∈ s.core.log
    rw [hl]; simp [this]

/-- The end of a traversal is marked as failed exactly if processing some node failed or an unknown artifact was
requested. -/
theorem C23_failed_iff (h : Reachable g ts s) (hq : s.quiet) :
    s.core.failed = true ↔ (∃ n, .finished n false ∈ s.core.log) ∨ ∃ t ∈ ts, g.known t = false := by
  rw [← failure h]
  constructor
  · intro h1 h2
    rw [h2.1] at h1
    cases h1
  · intro h1
    cases hf : s.core.failed with
    | true => rfl
    | false => exact absurd ⟨hf, quiet_pend hq _⟩ h1

/-- As long as something is queued or to be done, some step is possible. -/
theorem C23_progress (hq : ¬ s.quiet) : ∃ s', Step g s s' := by
  obtain ⟨core, queue, threads⟩ := s
  by_cases h1 : queue = []
  · have h2 : ∃ t ∈ threads, t ≠ [] := by
      by_contra h3
      push Not at h3
      exact hq ⟨h1, h3⟩
    obtain ⟨t, ht, hne⟩ := h2
    obtain ⟨pre, post, rfl⟩ := List.append_of_mem ht
    cases t with
    | nil => exact absurd rfl hne
    | cons o rest => exact ⟨_, .op core queue pre post o rest true⟩
  · cases queue with
    | nil => exact absurd rfl h1
    | cons o rest => exact ⟨_, .take core [] rest o threads⟩

end Verif.Dag
