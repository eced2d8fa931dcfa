import Verif.Repo.EvaluateProps

/-!
# Evaluation of the roots that have to be computed before the build: examples and violations (C108)
-/

namespace Verif.Evaluate

open Verif Relation

/-- Whether a root is being set. -/
def Phase.isSetting : Phase → Bool
  | .setting _ => true
  | _ => false

/-- Whether the serve endpoint is being asked. -/
def Phase.isInquiring : Phase → Bool
  | .inquiring => true
  | _ => false

theorem Inv.readable {W : World} {C : Config} {main : Str} {s : State} (h : Inv W C main s)
    (hs : ∀ k ∈ allPres C, (s.phase k).isSetting = false) : s.Readable := by
  intro k r hk
  have := hs k (h.wanted k (by rw [hk]; exact nofun)).mem
  rw [hk] at this
  exact nomatch this

theorem Inv.calm {W : World} {C : Config} {main : Str} {s : State} (h : Inv W C main s)
    (hs : ∀ k ∈ allPres C, (s.phase k).isInquiring = false) : ¬ s.Racy := by
  rintro ⟨k, _, _, hk, _⟩
  have := hs k (h.wanted k (by rw [hk]; exact nofun)).mem
  rw [hk] at this
  exact nomatch this

theorem readable_calm {s : State} (h : s.Readable) : ¬ s.Racy := fun ⟨_, k, v, _, hk⟩ => h k v hk

/-- A world in which a target has the sources of its repository as artifacts, in a directory. -/
def demoWorld (serve native : Bool) : World where
  serve := serve
  native := native
  tree := fun k C t => ∃ i w, assoc k.repository C = some i ∧ i.workspace.treeHash = some w ∧ t = 't' :: w
  structure_ := fun t => if t.head? = some 's' then t else 's' :: t

theorem demoWorld_ok (serve native : Bool) : (demoWorld serve native).OK := by
  constructor
  · rintro k C C' t hs ⟨i, w, hi, hw, rfl⟩
    have := hs k.repository .refl
    rw [hi] at this
    obtain ⟨j, hj, e⟩ := Option.map_eq_some_iff.1 this.symm
    refine ⟨j, w, hj, ?_, rfl⟩
    rw [← hw, ← treeHash_forget j.workspace, ← treeHash_forget i.workspace]
    exact congrArg (fun i : Info => i.workspace.treeHash) e
  · intro t
    simp only [demoWorld]
    by_cases h : t.head? = some 's'
    · rw [if_pos h, if_pos h]
    · rw [if_neg h]
      exact if_pos rfl

theorem demoWorld_unique (serve native : Bool) : ∀ k C t t', (demoWorld serve native).tree k C t →
    (demoWorld serve native).tree k C t' → t = t' := by
  rintro k C t t' ⟨i, w, hi, hw, rfl⟩ ⟨i', w', hi', hw', rfl⟩
  rw [hi] at hi'
  injection hi' with hi'
  subst hi'
  rw [hw] at hw'
  injection hw' with hw'
  rw [hw']

/-- A repository with the given workspace, and everything else from there. -/
def demoInfo (r : Root) (names : List (Str × Str)) : Info := ⟨r, r, r, r, names⟩

/-- A computed root. -/
def demoRoot (repo name : Str) (absent : Bool) : Pre := .computed repo [] name "{}".toList absent

/-- The main repository refers to one with a computed root, that is built in a repository with the structure of the
sources of another. -/
def demoConfig : Config :=
  [("m".toList, demoInfo (.file "/src".toList) [("x".toList, "a".toList)]),
   ("a".toList, demoInfo (.pre (demoRoot "b".toList "T".toList false)) []),
   ("b".toList, demoInfo (.pre (.tree "c".toList true)) []),
   ("c".toList, demoInfo (.absent "0".toList) [])]

/-- A run of the evaluation to its end. -/
theorem demo_run : ∃ s, Run (demoWorld true true) demoConfig "m".toList s ∧ s.Success demoConfig "m".toList ∧
    assoc "a".toList s.config = some (demoInfo (.present "ts0".toList) []) ∧
    assoc "b".toList s.config = some (demoInfo (.absent "s0".toList) []) ∧
    s.phase (.tree "c".toList true) = .done (.absent "s0".toList) ∧ s.served = ["s0".toList] := by
  have ok := demoWorld_ok true true
  have r0 : Run (demoWorld true true) demoConfig "m".toList _ := .start
  have h0 := (inv_run ok r0).readable (by decide)
  have r1 := r0.step (readable_calm h0) (.create (k := demoRoot "b".toList "T".toList false) (by decide) h0)
  have h1 := (inv_run ok r1).readable (by decide)
  have r2 := r1.step (readable_calm h1) (.create (k := .tree "c".toList true) (by decide) h1)
  have h2 := (inv_run ok r2).readable (by decide)
  have r3 := r2.step (readable_calm h2) (.resolve (r := "c".toList) (a := true) (deps := [])
    ⟨none, some "s0".toList, none, false, none, none, false, false⟩ (by decide) nofun h2 (by
      intro i t hi ht
      have e : assoc "c".toList demoConfig = some i := hi
      injection e with e
      subst e
      injection ht with ht
      subst ht
      refine ⟨nofun, ?_, nofun, nofun⟩
      rintro s ⟨⟩
      decide))
  have h3 := (inv_run ok r3).readable (by decide)
  have r4 := r3.step (readable_calm h3) (.lock (k := .tree "c".toList true) (v := .absent "s0".toList) (by decide) h3)
  have r5 := r4.step ((inv_run ok r4).calm (by decide)) (.set (k := .tree "c".toList true) (v := .absent "s0".toList) (by decide))
  have h5 := (inv_run ok r5).readable (by decide)
  have r6 := r5.step (readable_calm h5) (.lookup (r := "b".toList) (m := []) (n := "T".toList) (c := "{}".toList) (a := false)
    (deps := List.replicate 4 (.tree "c".toList true)) .miss (by decide) (by
      intro d hd
      rw [List.eq_of_mem_replicate hd]
      exact ⟨.absent "s0".toList, by decide⟩) h5 nofun)
  have h6 := (inv_run ok r6).readable (by decide)
  have r7 := r6.step (readable_calm h6) (.build (k := demoRoot "b".toList "T".toList false)
    ⟨some "ts0".toList, true, none, false⟩ (by decide) h6 (by
      rintro t ⟨⟩
      exact ⟨demoInfo (.absent "s0".toList) [], "s0".toList, by decide, rfl, rfl⟩))
  have h7 := (inv_run ok r7).readable (by decide)
  have r8 := r7.step (readable_calm h7) (.lock (k := demoRoot "b".toList "T".toList false) (v := .present "ts0".toList)
    (by decide) h7)
  have r9 := r8.step ((inv_run ok r8).calm (by decide)) (.set (k := demoRoot "b".toList "T".toList false)
    (v := .present "ts0".toList) (by decide))
  refine ⟨_, r9, ⟨?_, ?_⟩, by decide, by decide, by decide, by decide⟩
  · intro k hk
    have e : rootDeps demoConfig "m".toList = [demoRoot "b".toList "T".toList false, demoRoot "b".toList "T".toList false,
      demoRoot "b".toList "T".toList false, demoRoot "b".toList "T".toList false] := by decide
    rw [e] at hk
    simp only [List.mem_cons, List.not_mem_nil, or_false, or_self] at hk
    subst hk
    exact ⟨.present "ts0".toList, by decide⟩
  · intro k hk
    have hm := ((inv_run ok r9).wanted k (by rw [hk]; exact nofun)).mem
    revert hk
    revert hm
    have : ∀ k ∈ allPres demoConfig, (k = demoRoot "b".toList "T".toList false ∨ k = .tree "c".toList true) := by decide
    intro hm
    rcases this k hm with rfl | rfl
    · decide
    · decide

/-- The theorems about successful evaluations apply to it. -/
example : ∃ s, Run (demoWorld true true) demoConfig "m".toList s ∧ s.Success demoConfig "m".toList ∧
    (∀ k, Wanted demoConfig "m".toList k → ¬ TransGen (Dep demoConfig) k k) ∧
    (∀ s', Run (demoWorld true true) demoConfig "m".toList s' → s'.Success demoConfig "m".toList →
      (assoc "a".toList s'.config).map Info.forget = some (demoInfo (.present "ts0".toList) [])) ∧
    Becomes (demoWorld true true) s.config (.pre (demoRoot "b".toList "T".toList false)) (.present "ts0".toList) ∧
    "s0".toList ∈ s.served := by
  obtain ⟨s, hr, hs, ha, hb, hc, hd⟩ := demo_run
  have reach : Reach demoConfig "m".toList "a".toList :=
    .step .refl (i := demoInfo (.file "/src".toList) [("x".toList, "a".toList)]) (by decide) List.mem_cons_self
  refine ⟨s, hr, hs, fun k hk => C108_cycle (demoWorld_ok _ _) hr hs hk, fun s' hr' hs' => ?_, ?_, by rw [hd]; exact List.mem_cons_self⟩
  · rw [C108_unique_partial (demoWorld_ok _ _) (demoWorld_unique _ _) hr' hr hs' hs reach, ha]
    rfl
  · have h := C108_success_partial (demoWorld_ok _ _) hr hs reach
    have e : assoc "a".toList demoConfig = some (demoInfo (.pre (demoRoot "b".toList "T".toList false)) []) := by decide
    rw [e] at h
    obtain ⟨i', hi', _, hf⟩ := h
    rw [ha] at hi'
    injection hi' with hi'
    subst hi'
    exact (List.forall₂_cons.1 hf).1

/-- A root that depends on itself. -/
def cycleConfig : Config := [("m".toList, demoInfo (.pre (.tree "m".toList false)) [])]

/-- Its evaluation stops without success. -/
example : ∃ s, Run (demoWorld true true) cycleConfig "m".toList s ∧
    (∀ k, s.phase k ≠ .failed ∧ s.phase k ≠ .crashed) ∧ (∀ t, ¬ Step (demoWorld true true) s t) ∧
    ¬ s.Success cycleConfig "m".toList ∧
    ∃ k, Wanted cycleConfig "m".toList k ∧ TransGen (Dep cycleConfig) k k := by
  have ok := demoWorld_ok true true
  have r0 : Run (demoWorld true true) cycleConfig "m".toList _ := .start
  have h0 := (inv_run ok r0).readable (by decide)
  have r1 := r0.step (readable_calm h0) (.create (k := .tree "m".toList false) (by decide) h0)
  generalize hs : (((start cycleConfig "m".toList).go (.tree "m".toList false) (.waiting (rootDeps
    (start cycleConfig "m".toList).config (Pre.tree "m".toList false).repository))).request (rootDeps
    (start cycleConfig "m".toList).config (Pre.tree "m".toList false).repository)) = s at r1
  have hp : s.phase (.tree "m".toList false) = .waiting (List.replicate 4 (.tree "m".toList false)) := by
    rw [← hs]
    decide
  have hall : ∀ k ∈ allPres cycleConfig, k = .tree "m".toList false := by decide
  have hk : ∀ k, s.phase k = .none ∨ k = .tree "m".toList false := by
    intro k
    by_cases h : s.phase k = .none
    · exact .inl h
    · exact .inr (hall k ((inv_run ok r1).wanted k h).mem)
  have hne : ∀ k p, s.phase k = p → p = .none ∨ p = .waiting (List.replicate 4 (.tree "m".toList false)) := by
    rintro k p rfl
    rcases hk k with h | rfl
    · exact .inl h
    · exact .inr hp
  have hsuccess : ¬ s.Success cycleConfig "m".toList := by
    rintro ⟨h, _⟩
    obtain ⟨v, hv⟩ := h (.tree "m".toList false) (by decide)
    rw [hp] at hv
    exact nomatch hv
  have hstuck : ∀ t, ¬ Step (demoWorld true true) s t := by
    intro t ht
    cases ht with
    | create h _ => exact nomatch hne _ _ h
    | @lookup r m n c a _ _ h _ _ _ =>
      rcases hk (.computed r m n c a) with h' | h'
      · rw [h'] at h
        exact nomatch h
      · exact nomatch h'
    | inquired _ h _ => exact nomatch hne _ _ h
    | build _ h _ _ => exact nomatch hne _ _ h
    | @resolve r a _ _ h hd _ _ =>
      rcases hk (.tree r a) with h' | h'
      · rw [h'] at h
        exact nomatch h
      · rw [h', hp] at h
        injection h with h
        subst h
        obtain ⟨v, hv⟩ := hd (.tree "m".toList false) List.mem_cons_self
        rw [hp] at hv
        exact nomatch hv
    | lock h _ => exact nomatch hne _ _ h
    | set h => exact nomatch hne _ _ h
  have hf : ∀ k, s.phase k ≠ .failed ∧ s.phase k ≠ .crashed :=
    fun k => ⟨fun h => (nomatch hne _ _ h), fun h => (nomatch hne _ _ h)⟩
  exact ⟨s, r1, hf, hstuck, hsuccess, (C108_progress ok r1 hf hstuck).resolve_left hsuccess⟩

/-! ## Violations -/

/-- Two absent roots that can be asked from the serve endpoint. -/
def raceConfig : Config :=
  [("m".toList, ⟨.pre (demoRoot "b".toList "T".toList true), .pre (demoRoot "b".toList "U".toList true), .file [], .file [], []⟩),
   ("b".toList, demoInfo (.absent "0".toList) [])]

/-- **C108 (violation).** While the serve endpoint is asked for a root, the repositories are read without the lock
(evaluate.cpp:269-271, inquire_serve.cpp:89-90): meanwhile another root can be set, which changes them. -/
theorem C108_violation_race : ∃ s, Run (demoWorld true true) raceConfig "m".toList s ∧ s.Racy := by
  have ok := demoWorld_ok true true
  have r0 : Run (demoWorld true true) raceConfig "m".toList _ := .start
  have h0 := (inv_run ok r0).readable (by decide)
  have r1 := r0.step (readable_calm h0) (.create (k := demoRoot "b".toList "T".toList true) (by decide) h0)
  have h1 := (inv_run ok r1).readable (by decide)
  have r2 := r1.step (readable_calm h1) (.create (k := demoRoot "b".toList "U".toList true) (by decide) h1)
  have h2 := (inv_run ok r2).readable (by decide)
  have r3 := r2.step (readable_calm h2) (.lookup (r := "b".toList) (m := []) (n := "T".toList) (c := "{}".toList) (a := true)
    (deps := []) .miss (by decide) nofun h2 nofun)
  have h3 := (inv_run ok r3).readable (by decide)
  have r4 := r3.step (readable_calm h3) (.lookup (r := "b".toList) (m := []) (n := "U".toList) (c := "{}".toList) (a := true)
    (deps := []) .miss (by decide) nofun h3 nofun)
  have h4 := (inv_run ok r4).readable (by decide)
  have r5 := r4.step (readable_calm h4) (.inquired (k := demoRoot "b".toList "T".toList true) (some "t0".toList) (by decide) (by
      rintro t ⟨⟩
      exact ⟨demoInfo (.absent "0".toList) [], "0".toList, by decide, rfl, rfl⟩))
  have h5 := (inv_run ok r5).readable (by decide)
  have r6 := r5.step (readable_calm h5) (.lock (k := demoRoot "b".toList "T".toList true) (v := .absent "t0".toList)
    (by decide) h5)
  exact ⟨_, r6, demoRoot "b".toList "U".toList true, demoRoot "b".toList "T".toList true, .absent "t0".toList,
    by decide, by decide⟩

/-- An absent root of a repository that is present. -/
def cachedConfig : Config :=
  [("m".toList, demoInfo (.pre (demoRoot "b".toList "T".toList true)) []),
   ("b".toList, demoInfo (.present "0".toList) [])]

/-- **C108 (violation).** If an absent root is taken from the cache (evaluate.cpp:237-257), it is not ensured that the serve
endpoint has the tree, and the root is not absent. -/
theorem C108_violation_cached : ∃ s, Run (demoWorld true true) cachedConfig "m".toList s ∧
    s.Success cachedConfig "m".toList ∧
    s.phase (demoRoot "b".toList "T".toList true) = .done (.present "t0".toList) ∧ s.served = [] := by
  have ok := demoWorld_ok true true
  have r0 : Run (demoWorld true true) cachedConfig "m".toList _ := .start
  have h0 := (inv_run ok r0).readable (by decide)
  have r1 := r0.step (readable_calm h0) (.create (k := demoRoot "b".toList "T".toList true) (by decide) h0)
  have h1 := (inv_run ok r1).readable (by decide)
  have r2 := r1.step (readable_calm h1) (.lookup (r := "b".toList) (m := []) (n := "T".toList) (c := "{}".toList) (a := true)
    (deps := []) (.hit "t0".toList (some true) true) (by decide) nofun h1 (by
      rintro t g o ⟨⟩
      exact ⟨demoInfo (.present "0".toList) [], "0".toList, by decide, rfl, rfl⟩))
  have h2 := (inv_run ok r2).readable (by decide)
  have r3 := r2.step (readable_calm h2) (.lock (k := demoRoot "b".toList "T".toList true) (v := .present "t0".toList)
    (by decide) h2)
  have r4 := r3.step ((inv_run ok r3).calm (by decide)) (.set (k := demoRoot "b".toList "T".toList true)
    (v := .present "t0".toList) (by decide))
  refine ⟨_, r4, ⟨?_, ?_⟩, by decide, by decide⟩
  · intro k hk
    have hk := (mem_rootDeps.1 hk).mem
    have : ∀ k ∈ allPres cachedConfig, k = demoRoot "b".toList "T".toList true := by decide
    rw [this k hk]
    exact ⟨.present "t0".toList, by decide⟩
  · intro k hk
    have hm := ((inv_run ok r4).wanted k (by rw [hk]; exact nofun)).mem
    have : ∀ k ∈ allPres cachedConfig, k = demoRoot "b".toList "T".toList true := by decide
    rw [this k hm] at hk
    revert hk
    decide

/-- **C108 (violation).** For an absent root of an unknown repository a null pointer is dereferenced
(inquire_serve.cpp:48), instead of reporting an error. -/
theorem C108_violation_unknown : ∃ s, Run (demoWorld false true)
    [("m".toList, demoInfo (.pre (demoRoot "x".toList "T".toList true)) [])] "m".toList s ∧
    s.phase (demoRoot "x".toList "T".toList true) = .crashed := by
  have ok := demoWorld_ok false true
  have r0 : Run (demoWorld false true) [("m".toList, demoInfo (.pre (demoRoot "x".toList "T".toList true)) [])] "m".toList _ :=
    .start
  have h0 := (inv_run ok r0).readable (by decide)
  have r1 := r0.step (readable_calm h0) (.create (k := demoRoot "x".toList "T".toList true) (by decide) h0)
  have h1 := (inv_run ok r1).readable (by decide)
  have r2 := r1.step (readable_calm h1) (.lookup (r := "x".toList) (m := []) (n := "T".toList) (c := "{}".toList) (a := true)
    (deps := []) .miss (by decide) nofun h1 nofun)
  exact ⟨_, r2, by decide⟩

end Verif.Evaluate
