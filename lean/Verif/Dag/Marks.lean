import Verif.Dag.Build

/-!
# Marks of failed artifacts

C54: an artifact is marked as failed exactly if some action it depends on was allowed to fail and did so; an action
not allowed to fail makes the build fail.
-/

namespace Verif.Dag

variable {Art Act : Type} [DecidableEq Art] [DecidableEq Act]

/-- executor.hpp:145-296 (`ExecuteAction`): what executing an action gives. -/
inductive Response where
  /-- an error before getting a result (`nullptr`) -/
  | error
  /-- a tree or tree-overlay action: no response, the tree was created -/
  | tree
  /-- a response: its exit code, whether its artifacts could be read, are not empty, and contain all outputs with the
  right type -/
  | result (exit : Int) (outputs : Bool)
  deriving DecidableEq

/-- executor.hpp:84-140, 183-195, 681-785, 961-1037 (`Process` for actions): whether processing succeeded, and the mark
of the outputs if their object infos were set. `inputs` tells that some input is marked. -/
def process (mayFail inputs : Bool) : Response → Bool × Option Bool
  | .error => (false, none)
  | .tree => (true, some inputs)
  | .result exit outputs =>
    if exit ≠ 0 ∧ mayFail = false then (false, none)
    else if outputs = false then (false, none)
    else (true, some (inputs || decide (exit ≠ 0)))

/-- The actions of a build: which may fail, and what executing them gives. -/
structure Actions (Act : Type) where
  mayFail : Act → Bool
  response : Act → Response

/-- The marks on artifacts after what happened so far. Artifacts have no mark in the beginning (artifact.hpp:180-191),
and processing an artifact leaves it unmarked (executor.hpp:305-381). -/
def marks (g : Graph Art Act) (A : Actions Act) : List (Event Art Act) → Art → Bool
  | [], _ => false
  | .finished (.act c) _ :: l, a =>
    if a ∈ g.outs c then
      ((process (A.mayFail c) ((g.deps c).any (marks g A l)) (A.response c)).2).getD (marks g A l a)
    else marks g A l a
  | .finished (.art b) ok :: l, a => if b = a ∧ ok = true then false else marks g A l a
  | .started _ :: l, a => marks g A l a
  | .available _ :: l, a => marks g A l a

/-- The answers the traverser got are those of `process`. -/
def Agrees (g : Graph Art Act) (A : Actions Act) : List (Event Art Act) → Prop
  | [] => True
  | .finished (.act c) ok :: l =>
    ok = (process (A.mayFail c) ((g.deps c).any (marks g A l)) (A.response c)).1 ∧ Agrees g A l
  | _ :: l => Agrees g A l

/-! ## The properties -/

/-- The exit code of an action, if it has one. -/
def Response.exit : Response → Option Int
  | .result e _ => some e
  | _ => none

/-- The action was allowed to fail and did. -/
def Failed (A : Actions Act) (c : Act) : Prop :=
  A.mayFail c = true ∧ ∃ e, (A.response c).exit = some e ∧ e ≠ 0

variable {g : Graph Art Act} {A : Actions Act}

/-- Some action the artifact depends on failed. -/
def Tainted (g : Graph Art Act) (A : Actions Act) (a : Art) : Prop := ∃ c, Cone g [a] (.act c) ∧ Failed A c

omit [DecidableEq Art] [DecidableEq Act] in
theorem cone_mono {ts ts' : List Art} (h : ∀ t ∈ ts, Cone g ts' (.art t)) {n : Node Art Act} (hn : Cone g ts n) :
    Cone g ts' n := by
  induction hn with
  | target ht => exact h _ ht
  | builder _ hb ih => exact .builder ih hb
  | dep _ hd ih => exact .dep ih hd

omit [DecidableEq Art] [DecidableEq Act] in
/-- The cone of an artifact: the artifact, its builder, and the cones of the inputs of the builder. -/
theorem cone_unfold {a : Art} {n : Node Art Act} (h : Cone g [a] n) :
    n = .art a ∨ ∃ c, g.builder a = some c ∧ (n = .act c ∨ ∃ d ∈ g.deps c, Cone g [d] n) := by
  induction h with
  | @target t ht =>
    have : t = a := by simpa using ht
    exact Or.inl (by rw [this])
  | @builder b c _ hb ih =>
    rcases ih with h1 | ⟨c', h1, h2 | ⟨d, hd, h3⟩⟩
    · have : b = a := by simpa using h1
      subst this
      exact Or.inr ⟨c, hb, Or.inl rfl⟩
    · cases h2
    · exact Or.inr ⟨c', h1, Or.inr ⟨d, hd, .builder h3 hb⟩⟩
  | @dep c d _ hd ih =>
    rcases ih with h1 | ⟨c', h1, h2 | ⟨d', hd', h3⟩⟩
    · cases h1
    · have : c = c' := by simpa using h2
      subst this
      exact Or.inr ⟨c, h1, Or.inr ⟨d, hd, .target (by simp)⟩⟩
    · exact Or.inr ⟨c', h1, Or.inr ⟨d', hd', .dep h3 hd⟩⟩

omit [DecidableEq Art] [DecidableEq Act] in
theorem tainted_iff {a : Art} {c : Act} (hb : g.builder a = some c) :
    Tainted g A a ↔ Failed A c ∨ ∃ d ∈ g.deps c, Tainted g A d := by
  constructor
  · rintro ⟨c', h1, h2⟩
    rcases cone_unfold h1 with h3 | ⟨c'', h3, h4 | ⟨d, hd, h5⟩⟩
    · cases h3
    · rw [hb] at h3
      obtain rfl := Option.some.inj h3
      obtain rfl : c' = c := by simpa using h4
      exact Or.inl h2
    · rw [hb] at h3
      obtain rfl := Option.some.inj h3
      exact Or.inr ⟨d, hd, c', h5, h2⟩
  · rintro (h1 | ⟨d, hd, c', h1, h2⟩)
    · exact ⟨c, .builder (.target (by simp)) hb, h1⟩
    · refine ⟨c', cone_mono (fun t ht => ?_) h1, h2⟩
      have : t = d := by simpa using ht
      subst this
      exact .dep (.builder (.target (by simp)) hb) hd

omit [DecidableEq Art] [DecidableEq Act] in
theorem not_tainted {a : Art} (hb : g.builder a = none) : ¬ Tainted g A a := by
  rintro ⟨c, h1, -⟩
  rcases cone_unfold h1 with h2 | ⟨c', h2, -⟩
  · cases h2
  · rw [hb] at h2; cases h2

/-- What a successful processing of an action means. -/
theorem process_true {mayFail inputs : Bool} {r : Response} (h : (process mayFail inputs r).1 = true) :
    (process mayFail inputs r).2 = some (inputs || decide (mayFail = true ∧ ∃ e, r.exit = some e ∧ e ≠ 0)) ∧
      (mayFail = false → ∀ e, r.exit = some e → e = 0) := by
  cases r with
  | error => simp [process] at h
  | tree => simp [process, Response.exit]
  | result e o =>
    simp only [process] at h ⊢
    by_cases h1 : e ≠ 0 ∧ mayFail = false
    · simp [h1] at h
    · by_cases h2 : o = false
      · simp [h1, h2] at h
      · rw [if_neg h1, if_neg h2]
        simp only [Response.exit, Option.some.injEq]
        constructor
        · congr 2
          by_cases he : e = 0
          · simp [he]
          · have hm : mayFail = true := by
              cases mayFail with
              | true => rfl
              | false => exact absurd ⟨he, rfl⟩ h1
            simp [he, hm]
        · rintro hm e' rfl
          by_contra he
          exact h1 ⟨he, hm⟩

instance (A : Actions Act) (c : Act) : Decidable (Failed A c) := by
  unfold Failed
  cases (A.response c).exit with
  | none => exact isFalse (by simp)
  | some e => exact decidable_of_iff (A.mayFail c = true ∧ e ≠ 0) (by simp)

/-- What is known about any initial part of the log. -/
structure LogOK (g : Graph Art Act) (l : List (Event Art Act)) : Prop where
  ordered : Ordered g l
  once : ∀ n, l.count (.finished n true) + l.count (.finished n false) ≤ 1

theorem LogOK.tail {e : Event Art Act} {l : List (Event Art Act)} (h : LogOK g (e :: l)) : LogOK g l := by
  refine ⟨h.ordered.1, fun n => ?_⟩
  have := h.once n
  rw [List.count_cons, List.count_cons] at this
  omega

theorem logOK (hg : g.OK) {ts : List Art} {s : State Art Act} (h : Reachable g ts s) : LogOK g s.core.log := by
  refine ⟨(safe hg h).order, fun n => ?_⟩
  have h1 := (safe hg h).run n
  have h2 := (safe hg h).started_le n
  omega

omit [DecidableEq Act] in
theorem agrees_tail {e : Event Art Act} {l : List (Event Art Act)} (h : Agrees g A (e :: l)) : Agrees g A l := by
  cases e with
  | finished n ok =>
    cases n with
    | act c => exact h.2
    | art a => exact h
  | started n => exact h
  | available a => exact h

/-- The marks of everything built so far are right. -/
theorem marks_iff (hg : g.OK) {l : List (Event Art Act)} (hl : LogOK g l) (hA : Agrees g A l) :
    ∀ a, .finished (source g a) true ∈ l → (marks g A l a = true ↔ Tainted g A a) := by
  induction l with
  | nil => intro a ha; simp at ha
  | cons e l ih =>
    have ih := ih hl.tail (agrees_tail hA)
    intro a ha
    cases e with
    | started n => exact ih a (by simpa using ha)
    | available b => exact ih a (by simpa using ha)
    | finished n ok =>
      cases n with
      | art b =>
        by_cases hb : b = a ∧ ok = true
        · obtain ⟨rfl, rfl⟩ := hb
          have hbn : g.builder b = none := by
            have hs : .started (.art b) ∈ l := hl.ordered.2
            obtain ⟨l₁, l₂, h1⟩ := List.append_of_mem hs
            exact (ordered_split hl.ordered.1 h1).2
          simp [marks, not_tainted hbn]
        · have : marks g A (.finished (.art b) ok :: l) a = marks g A l a := by
            simp only [marks, if_neg hb]
          rw [this]
          refine ih a ?_
          rcases List.mem_cons.1 ha with h1 | h1
          · exfalso
            simp only [Event.finished.injEq] at h1
            exact hb ⟨(source_art.1 h1.1).2.symm, h1.2.symm⟩
          · exact h1
      | act c =>
        by_cases ho : a ∈ g.outs c
        · have hb := (hg.builder a c).2 ho
          have hsrc : source g a = .act c := source_act.2 hb
          have hok : ok = true := by
            rw [hsrc] at ha
            cases ok with
            | true => rfl
            | false =>
              exfalso
              have h1 : .finished (.act c) true ∈ l := by simpa using ha
              have h2 := hl.once (.act c)
              have h3 := List.count_pos_iff.2 h1
              simp at h2
              omega
          subst hok
          obtain ⟨h1, h2⟩ := process_true hA.1.symm
          have : marks g A (.finished (.act c) true :: l) a =
              ((g.deps c).any (marks g A l) ||
                decide (A.mayFail c = true ∧ ∃ e, (A.response c).exit = some e ∧ e ≠ 0)) := by
            simp only [marks, if_pos ho, h1, Option.getD_some]
          rw [this, Bool.or_eq_true, tainted_iff hb, or_comm, List.any_eq_true, decide_eq_true_eq]
          have hdep : ∀ d ∈ g.deps c, (marks g A l d = true ↔ Tainted g A d) := by
            intro d hd
            refine ih d ?_
            have hs : .started (.act c) ∈ l := hl.ordered.2
            obtain ⟨l₁, l₂, h3⟩ := List.append_of_mem hs
            have h4 := (ordered_split hl.ordered.1 h3).2 d hd
            have h5 : .available d ∈ l := by rw [h3]; simp [h4]
            obtain ⟨l₃, l₄, h6⟩ := List.append_of_mem h5
            have h7 := (ordered_split hl.ordered.1 h6).2
            rw [h6]; simp [h7]
          exact or_congr Iff.rfl ⟨fun ⟨d, h3, h4⟩ => ⟨d, h3, (hdep d h3).1 h4⟩,
            fun ⟨d, h3, h4⟩ => ⟨d, h3, (hdep d h3).2 h4⟩⟩
        · have : marks g A (.finished (.act c) ok :: l) a = marks g A l a := by
            simp only [marks, if_neg ho]
          rw [this]
          refine ih a ?_
          rcases List.mem_cons.1 ha with h1 | h1
          · exfalso
            simp only [Event.finished.injEq] at h1
            exact ho ((hg.builder a c).1 (source_act.1 h1.1))
          · exact h1

/-- At any time in a traversal, an available artifact is marked as failed exactly if some action it transitively
depends on was allowed to fail and exited with a non-zero code. -/
theorem C54_marked_iff (hg : g.OK) {ts : List Art} {s : State Art Act} (h : Reachable g ts s)
    (hA : Agrees g A s.core.log) {a : Art} (ha : .available a ∈ s.core.log) :
    marks g A s.core.log a = true ↔ ∃ c, Cone g [a] (.act c) ∧ Failed A c := by
  refine marks_iff hg (logOK hg h) hA a ?_
  have h1 := (safe hg h).notif a
  have h2 := List.count_pos_iff.2 ha
  exact List.count_pos_iff.1 (by omega)

omit [DecidableEq Act] in
theorem agrees_mem {l : List (Event Art Act)} (hA : Agrees g A l) {c : Act} {ok : Bool}
    (h : .finished (.act c) ok ∈ l) : ∃ inputs, ok = (process (A.mayFail c) inputs (A.response c)).1 := by
  induction l with
  | nil => simp at h
  | cons e l ih =>
    rcases List.mem_cons.1 h with h1 | h1
    · subst h1
      exact ⟨_, hA.1⟩
    · exact ih (agrees_tail hA) h1

/-- A build that ended without failure has run all actions needed; each of them had exit code zero, or was allowed to
fail. -/
theorem C54_success (hg : g.OK) (ha : g.Acyclic) {ts : List Art} {s : State Art Act} (h : Reachable g ts s)
    (hq : s.quiet) (hA : Agrees g A s.core.log) (hf : s.core.failed = false) {c : Act} (hc : Cone g ts (.act c)) :
    (∀ e, (A.response c).exit = some e → e = 0 ∨ A.mayFail c = true) := by
  have hd := (C23_complete hg ha h hq hf).2 _ hc
  obtain ⟨i, hi⟩ := agrees_mem hA hd
  obtain ⟨-, h2⟩ := process_true hi.symm
  intro e he
  cases hm : A.mayFail c with
  | true => exact Or.inr rfl
  | false => exact Or.inl (h2 hm e he)

/-- An action that ran to its end, exited non-zero and was not allowed to fail makes the traversal fail. -/
theorem C54_failure {ts : List Art} {s : State Art Act} (h : Reachable g ts s) (hg : g.OK) (hq : s.quiet)
    (hA : Agrees g A s.core.log) {c : Act} (hs : .started (.act c) ∈ s.core.log) (hm : A.mayFail c = false) {e : Int}
    (he : (A.response c).exit = some e) (hne : e ≠ 0) : s.core.failed = true := by
  have h1 := (safe hg h).run (.act c)
  rw [quiet_pend hq] at h1
  have h2 := List.count_pos_iff.2 hs
  by_cases h3 : .finished (.act c) true ∈ s.core.log
  · exfalso
    obtain ⟨i, hi⟩ := agrees_mem hA h3
    exact hne ((process_true hi.symm).2 hm e he)
  · have h4 := List.count_eq_zero.2 h3
    exact (C23_failed_iff h hq).2 (Or.inl ⟨.act c, List.count_pos_iff.1 (by omega)⟩)

/-- graph_traverser.cpp:96-99, main.cpp:1299-1305: whether the build is reported to contain failed artifacts. -/
def failedArtifacts (g : Graph Art Act) (A : Actions Act) (log : List (Event Art Act)) (ts : List Art) : Bool :=
  ts.any (marks g A log)

/-- A successful build is reported to contain failed artifacts exactly if some action it needed failed. -/
theorem C54_reported (hg : g.OK) (ha : g.Acyclic) {ts : List Art} {s : State Art Act} (h : Reachable g ts s)
    (hq : s.quiet) (hA : Agrees g A s.core.log) (hf : s.core.failed = false) :
    failedArtifacts g A s.core.log ts = true ↔
      ∃ c e, Cone g ts (.act c) ∧ (A.response c).exit = some e ∧ e ≠ 0 := by
  have hC := (C23_complete hg ha h hq hf).2
  unfold failedArtifacts
  rw [List.any_eq_true]
  constructor
  · rintro ⟨t, ht, hm⟩
    obtain ⟨c, hc, -, e, he⟩ := (C54_marked_iff hg h hA (hC _ (.target ht))).1 hm
    refine ⟨c, e, cone_mono (fun u hu => ?_) hc, he⟩
    have : u = t := by simpa using hu
    subst this
    exact .target ht
  · rintro ⟨c, e, hc, he, hne⟩
    have hm : A.mayFail c = true := by
      rcases C54_success hg ha h hq hA hf hc e he with h1 | h1
      · exact absurd h1 hne
      · exact h1
    have : ∃ t ∈ ts, Cone g [t] (.act c) := by
      have key : ∀ n, Cone g ts n → ∃ t ∈ ts, Cone g [t] n := by
        intro n hn
        induction hn with
        | @target t ht => exact ⟨t, ht, .target (by simp)⟩
        | builder _ hb ih => obtain ⟨t, h1, h2⟩ := ih; exact ⟨t, h1, .builder h2 hb⟩
        | dep _ hd ih => obtain ⟨t, h1, h2⟩ := ih; exact ⟨t, h1, .dep h2 hd⟩
      exact key _ hc
    obtain ⟨t, ht, hct⟩ := this
    exact ⟨t, ht, (C54_marked_iff hg h hA (hC _ (.target ht))).2 ⟨c, hct, hm, e, he, hne⟩⟩

/-! ## Example -/

namespace Example

/-- The first action is allowed to fail and exits with 1 but has its outputs. -/
def actions : Actions Nat := ⟨fun c => c = 10, fun c => if c = 10 then .result 1 true else .result 0 true⟩

theorem final_agrees : Agrees graph actions final.core.log := by
  have : final.core.log = [.available 4, .finished (.act 20) true, .started (.act 20), .available 3, .available 2,
      .finished (.act 10) true, .started (.act 10), .available 1, .finished (.art 1) true, .started (.art 1)] := by
    decide +kernel
  rw [this]
  refine ⟨?_, ?_, trivial⟩ <;> decide +kernel

/-- Everything depending on it is marked; the source is not. -/
example : marks graph actions final.core.log 4 = true := by decide +kernel
example : marks graph actions final.core.log 1 = false := by decide +kernel

example : ∃ c, Cone graph [4] (.act c) ∧ Failed actions c :=
  (C54_marked_iff graph_ok final_reach final_agrees (by decide +kernel)).1 (by decide +kernel)

example : ∃ c e, Cone graph [4] (.act c) ∧ (actions.response c).exit = some e ∧ e ≠ 0 :=
  (C54_reported graph_ok graph_acyclic final_reach final_quiet final_agrees final_ok).1 (by decide +kernel)

/-- The same without being allowed to fail: the traversal that stopped at the first action. -/
def strict : Actions Nat := ⟨fun _ => false, fun c => if c = 10 then .result 1 true else .result 0 true⟩

theorem broken_agrees : Agrees graph strict broken.core.log := by
  have : broken.core.log = [.finished (.act 10) false, .started (.act 10), .available 1, .finished (.art 1) true,
      .started (.art 1)] := by
    decide +kernel
  rw [this]
  exact ⟨by decide +kernel, trivial⟩

example : broken.core.failed = true :=
  C54_failure broken_reach graph_ok broken_quiet broken_agrees (c := 10) (e := 1) (by decide +kernel) (by decide)
    (by decide) (by decide)

end Example

end Verif.Dag
