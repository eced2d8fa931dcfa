import Verif.Dag.ExecutorProps

/-!
# Examples of builds, and a violation: C86

The graph and the traversal of `Verif.Dag.Build`: action 10 makes a file 2 and a directory 3 from the file 1; action 20 is
a tree action that puts 2 (twice) and 3 into a directory.
-/

namespace Verif.Dag.Executor

open Verif.Dig (ObjectType)
open Verif.Remote.Upload

variable {Art Act δ : Type} [DecidableEq Art] [DecidableEq Act] [DecidableEq δ]

/-- A build following a given log, where the same service is used each time. -/
def replay (W : World Art δ) (P : Plan Art Act δ) (V : Act → Service δ) (n : Nat) (s₀ : List δ) :
    List (Event Art Act) → Option (Ex Art δ)
  | [] => some ⟨givenInfo P, s₀⟩
  | .started _ :: l => replay W P V n s₀ l
  | .available _ :: l => replay W P V n s₀ l
  | .finished (.art a) ok :: l =>
    match replay W P V n s₀ l with
    | none => none
    | some x =>
      match processArt W P n a x with
      | .fine ok' x' => if ok' = ok then some x' else none
      | _ => none
  | .finished (.act c) ok :: l =>
    match replay W P V n s₀ l with
    | none => none
    | some x =>
      match processAct W P (V c) n c x with
      | .fine ok' x' => if ok' = ok then some x' else none
      | _ => none

omit [DecidableEq Act] in
theorem replay_ran {kids : δ → List δ} {W : World Art δ} {P : Plan Art Act δ} {V : Act → Service δ} {n : Nat}
    {s₀ : List δ} : ∀ {l : List (Event Art Act)} {x : Ex Art δ}, replay W P V n s₀ l = some x →
    Ran kids W P (fun c v => v = V c) s₀ l x
  | [], x, h => by
    injection h with h
    subst h
    exact .start
  | .started m :: l, x, h => .started m (replay_ran (l := l) h)
  | .available a :: l, x, h => .available a (replay_ran (l := l) h)
  | .finished (.art a) ok :: l, x, h => by
    rw [replay] at h
    cases hr : replay W P V n s₀ l with
    | none => rw [hr] at h; exact nomatch h
    | some y =>
      rw [hr] at h
      simp only at h
      cases hp : processArt W P n a y with
      | ub => rw [hp] at h; exact nomatch h
      | more => rw [hp] at h; exact nomatch h
      | fine ok' x' =>
        rw [hp] at h
        simp only at h
        by_cases e : ok' = ok
        · rw [if_pos e] at h
          injection h with h
          subst h e
          exact .art n (replay_ran hr) hp
        · rw [if_neg e] at h; exact nomatch h
  | .finished (.act c) ok :: l, x, h => by
    rw [replay] at h
    cases hr : replay W P V n s₀ l with
    | none => rw [hr] at h; exact nomatch h
    | some y =>
      rw [hr] at h
      simp only at h
      cases hp : processAct W P (V c) n c y with
      | ub => rw [hp] at h; exact nomatch h
      | more => rw [hp] at h; exact nomatch h
      | fine ok' x' =>
        rw [hp] at h
        simp only at h
        by_cases e : ok' = ok
        · rw [if_pos e] at h
          injection h with h
          subst h e
          exact .act n (V c) (replay_ran hr) rfl hp
        · rw [if_neg e] at h; exact nomatch h

namespace Example

open Verif.Dag.Example

def kids : Nat → List Nat
  | 50 => [51]
  | 60 => [7]
  | 70 => [71, 50, 8]
  | 71 => [8]
  | _ => []

def plan : Plan Nat Nat Nat where
  given _ := none
  isFile a := decide (a = 1)
  work c := if c = 20 then .tree else .command
  mayFail _ := false
  inputs c := if c = 10 then [(['i'], 1)] else if c = 20 then [(['p', '/', 'a'], 2), (['q'], 3), (['r'], 2)]
    else if c = 30 then [(['i'], 1)] else []
  files c := if c = 10 then [(['a'], 2)] else if c = 30 then [(['o'], 5)] else []
  dirs c := if c = 10 then [(['b'], 3)] else if c = 20 then [(['t'], 4)] else []

theorem plan_fits : Fits graph plan := by
  have hS := C22_graph_described graph_built
  refine ⟨fun c => ?_, fun c => ?_, fun c hc => ?_⟩
  · by_cases h1 : c = 10
    · subst h1; decide
    · by_cases h2 : c = 20
      · subst h2; decide
      · by_cases h3 : c = 30
        · subst h3; decide
        · rw [hS.deps]
          have h1' : ¬ 10 = c := fun e => h1 e.symm
          have h2' : ¬ 20 = c := fun e => h2 e.symm
          have h3' : ¬ 30 = c := fun e => h3 e.symm
          simp [plan, h1, h2, h3, descs, h1', h2', h3']
  · by_cases h1 : c = 10
    · subst h1; decide
    · by_cases h2 : c = 20
      · subst h2; decide
      · by_cases h3 : c = 30
        · subst h3; decide
        · have h1' : ¬ 10 = c := fun e => h1 e.symm
          have h2' : ¬ 20 = c := fun e => h2 e.symm
          have h3' : ¬ 30 = c := fun e => h3 e.symm
          rw [hS.outs]
          simp [plan, h1, h2, h3, descs, h1', h2', h3']
  · by_cases h2 : c = 20
    · subst h2
      exact ⟨by decide, ((['t'], 4) : Str × Nat), by decide⟩
    · exact absurd (by simp [plan, h2]) hc

def source : Source Nat := ⟨fun d => decide (kids d ≠ []), kids, fun _ => true, fun _ => 10⟩

def world : World Nat Nat where
  R := examplePeer 50
  lim := 25
  blob a := if a = 1 then some (7, .file) else none
  localHas _ := false
  localSrc := source
  gitSrc _ := source
  root ins :=
    if ins = [(['i'], 7, .file)] then some 60
    else if ins = [(['p', '/', 'a'], 8, .file), (['q'], 50, .tree), (['r'], 8, .file)] then some 70
    else none
  rootSrc _ := ⟨fun d => decide (d ≥ 60), fun d => if d = 70 then [71] else [], fun _ => true, fun _ => 10⟩
  overlay _ _ := (none, [])

theorem source_whole : Whole source kids := by
  intro d k hk
  refine ⟨?_, hk⟩
  show decide (kids d ≠ []) = true
  rw [decide_eq_true_eq]
  intro e
  rw [e] at hk
  exact nomatch hk

theorem world_ok : world.OK kids := by
  refine ⟨examplePeer_ok 50, fun a d t h => ?_, source_whole, fun _ => source_whole, fun ins r s h hin => ?_,
    fun dis ins s _ _ => ⟨fun a d b e => absurd e (by simp [world]), fun d e => nomatch e⟩⟩
  · simp only [world] at h
    split at h
    · injection h with h
      injection h with h1 h2
      subst h1
      rfl
    · exact nomatch h
  · simp only [world] at h
    split at h
    · rename_i e
      injection h with h
      subst h e
      refine ⟨by decide, fun d hd k hk => ?_⟩
      have hd' : d = 60 := by
        clear hk
        induction hd with
        | root h => simpa using h
        | step _ hk' ih =>
          subst ih
          simp [world] at hk'
      subst hd'
      have : k = 7 := by simpa [kids] using hk
      subst this
      exact .inr (hin (['i'], 7, .file) (by simp))
    · split at h
      · rename_i e
        injection h with h
        subst h e
        refine ⟨by decide, fun d hd k hk => ?_⟩
        have hd' : d = 70 ∨ d = 71 := by
          clear hk
          induction hd with
          | root h => exact .inl (by simpa using h)
          | step _ hk' ih =>
            rcases ih with rfl | rfl
            · exact .inr (by simpa [world] using hk')
            · simp [world] at hk'
        have h8 : 8 ∈ s := hin (['r'], 8, .file) (by simp)
        have h50 : 50 ∈ s := hin (['q'], 50, .tree) (by simp)
        rcases hd' with rfl | rfl
        · have : k = 71 ∨ k = 50 ∨ k = 8 := by simpa [kids] using hk
          rcases this with rfl | rfl | rfl
          · exact .inl ⟨by decide, by decide⟩
          · exact .inr h50
          · exact .inr h8
        · have : k = 8 := by simpa [kids] using hk
          subst this
          exact .inr h8
      · exact nomatch h

/-- Action 10 on its directory. -/
def answer : Reply Nat := ⟨0, some [(['a'], 8, .file), (['b'], 50, .tree)]⟩

def runs (_ : Nat) (r : Nat) (q : Reply Nat) : Prop := r = 60 ∧ q = answer

def service : Service Nat :=
  ⟨fun r s => if r = 60 then (some answer, s ++ [8, 51, 50]) else (none, s), none⟩

theorem service_honest (c : Nat) : Honest kids (runs c) service ∧ Reliable service := by
  refine ⟨⟨fun r s _ _ => ?_, fun r s q _ _ h => ?_, fun r s q l _ _ h _ hl o ho => ?_, fun b e => nomatch e⟩,
    fun b e => nomatch e⟩
  · simp only [service]
    split
    · refine ⟨[8, 51, 50], rfl, fun a d b e k hk => ?_⟩
      match a, e with
      | [], e => injection e with e _; subst e; exact nomatch hk
      | [_], e => injection e with _ e; injection e with e _; subst e; exact nomatch hk
      | [_, y], e =>
        injection e with _ e
        injection e with e1 e
        injection e with e _
        subst e e1
        have : k = 51 := by simpa [kids] using hk
        subst this
        simp
      | _ :: _ :: _ :: [], e => exact nomatch e
      | _ :: _ :: _ :: _ :: _, e => exact nomatch e
    · exact .refl _
  · simp only [service] at h
    split at h
    · rename_i e
      injection h with h
      exact ⟨e, h.symm⟩
    · exact nomatch h
  · simp only [service] at h ⊢
    split at h
    · rename_i e
      injection h with h
      subst h
      injection hl with hl
      subst hl
      rw [if_pos e]
      simp only [List.mem_cons, List.not_mem_nil, or_false] at ho
      rcases ho with rfl | rfl <;> simp
    · exact nomatch h

theorem final_log : final.core.log = [.available 4, .finished (.act 20) true, .started (.act 20), .available 3,
    .available 2, .finished (.act 10) true, .started (.act 10), .available 1, .finished (.art 1) true,
    .started (.art 1)] := by
  decide +kernel

theorem built : ∃ x, Ran kids world plan (fun _ v => v = service) [99] final.core.log x ∧
    x.vals 4 = some ⟨70, .tree, false⟩ ∧ x.store = [99, 7, 60, 8, 51, 50, 71, 70] := by
  have h : (match replay world plan (fun _ => service) 5 [99] final.core.log with
    | some x => decide (x.vals 4 = some ⟨70, .tree, false⟩ ∧ x.store = [99, 7, 60, 8, 51, 50, 71, 70])
    | none => false) = true := by
    rw [final_log]
    decide +kernel
  cases hr : replay world plan (fun _ => service) 5 [99] final.core.log with
  | none => rw [hr] at h; exact nomatch h
  | some x =>
    rw [hr] at h
    exact ⟨x, replay_ran hr, of_decide_eq_true h⟩

theorem services : ∀ c V, V = service → Honest kids (runs c) V ∧ Reliable V := by
  rintro c V rfl
  exact service_honest c

theorem closed_start : Closed kids [99] := by
  intro d hd k hk
  rw [List.mem_singleton] at hd
  subst hd
  exact nomatch hk

/-- C86 applies: all that is below the result is there. -/
example : ∃ x : Ex Nat Nat, ∃ v, x.vals 4 = some v ∧ ∀ d, Below kids [v.digest] d → d ∈ x.store := by
  obtain ⟨x, hx, -⟩ := built
  exact ⟨x, (C86_build graph_ok graph_acyclic plan_fits world_ok services closed_start final_reach final_quiet final_ok
    hx).1 4 (.target (by simp))⟩

example : ∃ x : Ex Nat Nat, Explained world plan runs x.vals 10 := by
  obtain ⟨x, hx, -⟩ := built
  have c1 : Cone graph [4] (.act 20) := .builder (.target (t := 4) (by simp)) (by decide)
  have c2 : Cone graph [4] (.art 2) := .dep c1 (by decide)
  exact ⟨x, (C86_build graph_ok graph_acyclic plan_fits world_ok services closed_start final_reach final_quiet final_ok
    hx).2.2 10 (.builder c2 (by decide))⟩

example : ∃ x, Ran kids world plan (fun _ v => v = service) [99] final.core.log x ∧
    processAct world plan service 5 20 x ≠ .ub := by
  obtain ⟨x, hx, -⟩ := built
  exact ⟨x, hx, C86_defined graph_ok plan_fits world_ok services closed_start final_reach hx (by decide +kernel) _ _⟩

/-- The directory of the first action is completely there when it is sent. -/
example : ∃ x : Ex Nat Nat, ∀ n ins r s', inputsOf x.vals (plan.inputs 10) = some ins →
    createRoot world n ins x.store = some (some r, s') → ∀ d, Below kids [r] d → d ∈ s' := by
  obtain ⟨x, hx, -⟩ := built
  exact ⟨x, fun n ins r s' h1 h2 => (C86_sent graph_ok plan_fits world_ok services closed_start final_reach hx (c := 10)
    (by decide +kernel) n h1 h2).2⟩

/-- The same with another storage and other limits agrees. -/
example : ∀ x x', Ran kids world plan (fun _ v => v = service) [99] final.core.log x →
    Ran kids { world with lim := 1000, localHas := fun _ => true } plan (fun _ v => v = service) [] final.core.log x' →
    x.vals 4 = x'.vals 4 := by
  intro x x' hx hx'
  have hW' : World.OK { world with lim := 1000, localHas := fun _ => true } kids :=
    ⟨world_ok.peer, world_ok.blob, world_ok.localSrc, world_ok.gitSrc, world_ok.root, world_ok.overlay⟩
  exact C86_reproducible graph_ok graph_acyclic plan_fits world_ok hW' services services closed_start
    (fun _ hd => absurd hd List.not_mem_nil) rfl (fun _ _ => rfl) rfl
    (fun c r q q' h h' => by rw [h.2, h'.2]; exact ⟨rfl, rfl⟩) final_reach final_quiet final_ok hx final_reach final_quiet
    final_ok hx' (.target (by simp)) (.target (by simp))

/-- An action that is dispatched to another endpoint, from which nothing can be retrieved. -/
def away : Service Nat :=
  ⟨fun r s => if r = 60 then (some answer, s) else (none, s), some fun _ s => (false, s)⟩

theorem away_honest (c : Nat) : Honest kids (runs c) away := by
  refine ⟨fun r s _ _ => ?_, fun r s q _ _ h => ?_, fun r s q l _ _ h e _ o ho => (nomatch e), fun b e l s _ => ?_⟩
  · simp only [away]
    split <;> exact .refl _
  · simp only [away] at h
    split at h
    · rename_i e
      injection h with h
      exact ⟨e, h.symm⟩
    · exact nomatch h
  · injection e with e
    subst e
    exact ⟨.refl _, fun e => nomatch e⟩

/-- Violation: if the outputs of an action that was dispatched to another endpoint can not be retrieved, the build goes on,
and ends without a failure, although objects below its result are not in the storage; which is not closed
any more. -/
theorem C86_violated_dispatch : ∃ x, Ran kids world plan (fun _ v => v = away) [] final.core.log x ∧
    (∀ c, Honest kids (runs c) away) ∧ Reachable graph [4] final ∧ final.quiet ∧ final.core.failed = false ∧
    ∃ v, x.vals 4 = some v ∧ v.failed = false ∧ v.digest ∈ x.store ∧ Below kids [v.digest] 8 ∧ 8 ∉ x.store ∧
    ¬ Closed kids x.store := by
  have h : (match replay world plan (fun _ => away) 5 [] final.core.log with
    | some x => decide (x.vals 4 = some ⟨70, .tree, false⟩ ∧ x.store = [7, 60, 71, 70])
    | none => false) = true := by
    rw [final_log]
    decide +kernel
  cases hr : replay world plan (fun _ => away) 5 [] final.core.log with
  | none => rw [hr] at h; exact nomatch h
  | some x =>
    rw [hr] at h
    obtain ⟨h1, h2⟩ := of_decide_eq_true h
    refine ⟨x, replay_ran hr, away_honest, final_reach, final_quiet, final_ok, _, h1, rfl, ?_,
      .step (.root (List.mem_singleton.2 rfl)) (by decide), ?_, fun hc => ?_⟩
    · rw [h2]; decide
    · rw [h2]; decide
    · have := hc 70 (by rw [h2]; decide) 8 (by decide)
      rw [h2] at this
      revert this
      decide

end Example

end Verif.Dag.Executor
