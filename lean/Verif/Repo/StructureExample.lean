import Verif.Repo.StructureLocal
import Verif.Tree.InstallExample

/-!
# Tree structures: examples and violations (C81)
-/

namespace Verif.Struct.Example

open Verif.Dig (ObjectType)
open Verif.Path
open Verif.Roots (Out Canonical)
open Verif.Roots.Example (name_of decideName)
open Verif.Install
open Verif.Install.Example (clean_demo full_tree full_leaf Full)
open Verif.Tree (Info Obs Env Store Ent Listing NoCollision look retrieve parseTree demoEnv demoEnv_ok treeOf treeText subA
  someId otherId listingOK listingOK_spec)

/-! ## Trees -/

/-- The id of the empty blob. -/
def e : Str := List.replicate 20 'e'

/-- A directory with a subdirectory, a file, and an executable. -/
def tree : List Ent := [⟨['d'], .tree, (treeOf subA).id⟩, ⟨['x'], .file, someId⟩, ⟨['z'], .executable, otherId⟩]

/-- The same with other contents. -/
def other : List Ent := [⟨['d'], .tree, (treeOf subA).id⟩, ⟨['x'], .file, otherId⟩, ⟨['z'], .executable, someId⟩]

def subS : List Ent := [⟨['p'], .file, e⟩, ⟨['q'], .file, e⟩]
def treeS : List Ent := [⟨['d'], .tree, (treeOf subS).id⟩, ⟨['x'], .file, e⟩, ⟨['z'], .executable, e⟩]

def U : Store := [treeText subA, treeText tree, treeText other, treeText subS, treeText treeS]

theorem U_ok : NoCollision demoEnv U := by
  unfold NoCollision
  decide +kernel

theorem e_length : e.length = 20 := by decide

theorem rev (l : List Ent) : (List.reverse l).Perm l := List.reverse_perm l

/-- The storage with these trees, and an empty cache of two generations. -/
def s0 : State := ⟨[treeText other, treeText tree, treeText subA], [], [[]]⟩

theorem reach0 : Reach demoEnv U e List.reverse s0 := by
  refine .store (s := ⟨[treeText tree, treeText subA], [], [[]]⟩) (l := other) (.store (s := ⟨[treeText subA], [], [[]]⟩)
    (l := tree) (.store (s := ⟨[], [], [[]]⟩) (l := subA) (.start 1) ?_ ?_ ?_ ?_) ?_ ?_ ?_ ?_) ?_ ?_ ?_ ?_
  · simp [U]
  · decide +kernel
  · exact (listingOK_spec (by decide +kernel)).1
  · intro x hx ht
    simp only [subA, List.mem_cons, List.not_mem_nil, or_false] at hx
    rcases hx with rfl | rfl
    · cases ht
    · cases ht
  · simp [U]
  · decide +kernel
  · exact (listingOK_spec (by decide +kernel)).1
  · intro x hx ht
    simp only [tree, List.mem_cons, List.not_mem_nil, or_false] at hx
    rcases hx with rfl | rfl | rfl
    · exact ⟨_, List.mem_singleton.2 rfl, rfl⟩
    · cases ht
    · cases ht
  · simp [U]
  · decide +kernel
  · exact (listingOK_spec (by decide +kernel)).1
  · intro x hx ht
    simp only [other, List.mem_cons, List.not_mem_nil, or_false] at hx
    rcases hx with rfl | rfl | rfl
    · exact ⟨_, List.mem_cons_of_mem _ (List.mem_singleton.2 rfl), rfl⟩
    · cases ht
    · cases ht

/-- The state after computing the structure. -/
def s1 : State := ⟨treeText treeS :: treeText subS :: s0.cas, [((treeOf tree).id, (treeOf treeS).id),
  ((treeOf subA).id, (treeOf subS).id)], [[]]⟩

theorem computed : compute demoEnv e List.reverse 5 (treeOf tree).id s0 = (some (treeOf treeS).id, s1) := by decide +kernel

theorem s1_in : ∀ d ∈ s1.cas, d ∈ U := by decide +kernel

/-- Hypotheses of `C81_structure` are met. -/
example : (∀ q, look demoEnv s1.cas (treeOf treeS) q = (look demoEnv s1.cas (treeOf tree) q).map (blank e)) ∧
    look demoEnv s1.cas (treeOf treeS) [['d'], ['p']] = some (.leaf .file e) ∧
    look demoEnv s1.cas (treeOf treeS) [['z']] = some (.leaf .executable e) :=
  ⟨(C81_structure demoEnv_ok U_ok e_length rev reach0 computed s1_in).1, by decide +kernel⟩

/-- The other tree, with the cache that has the first. -/
theorem reach1 : Reach demoEnv U e List.reverse s1 := by
  have := reach0.compute 5 (treeOf tree).id (by rw [computed]; exact s1_in)
  rwa [computed] at this

/-- The other structure is the same, and that of the subdirectory is in the cache. -/
def s2 : State := ⟨treeText treeS :: s1.cas, ((treeOf other).id, (treeOf treeS).id) :: s1.latest, [[]]⟩

theorem computed2 : compute demoEnv e List.reverse 5 (treeOf other).id s1 = (some (treeOf treeS).id, s2) := by decide +kernel

theorem s2_in : ∀ d ∈ s2.cas, d ∈ U := by decide +kernel

/-- Hypotheses of `C81_same` are met. -/
example (q : List Str) : (look demoEnv s0.cas (treeOf tree) q).map (blank e) = (look demoEnv s1.cas (treeOf other) q).map (blank e) :=
  (C81_same demoEnv_ok U_ok e_length rev reach0 reach1 computed computed2 s1_in s2_in).1 rfl q

/-- The structure of the structure. -/
def s3 : State := ⟨treeText treeS :: treeText subS :: s1.cas, ((treeOf treeS).id, (treeOf treeS).id) ::
  ((treeOf subS).id, (treeOf subS).id) :: s1.latest, [[]]⟩

theorem computed3 : compute demoEnv e List.reverse 5 (treeOf treeS).id s1 = (some (treeOf treeS).id, s3) := by decide +kernel

/-- Hypotheses of `C81_fixed` are met. -/
example : (treeOf treeS).id = (treeOf treeS).id :=
  C81_fixed demoEnv_ok U_ok e_length rev reach0 computed s1_in computed3 (by decide +kernel)

theorem in0 : In demoEnv s0.cas (treeOf tree).id := ⟨treeText tree, by simp [s0], rfl⟩

/-- Hypotheses of `C81_success` are met. -/
example : ∃ N, ∀ n, N ≤ n → (∀ d ∈ (compute demoEnv e List.reverse n (treeOf tree).id s0).2.cas, d ∈ U) →
    ∃ v, (compute demoEnv e List.reverse n (treeOf tree).id s0).1 = some v :=
  C81_success demoEnv_ok U_ok e_length rev reach0 in0

/-! ## Git -/

theorem links_leaf {S : Store} {i : Info} (h : i.type ≠ .tree) (h' : i.type ≠ .symlink) (q : List Str) (x : Str) :
    look demoEnv S i q ≠ some (.leaf .symlink x) := by
  cases q with
  | nil =>
    rw [look, if_neg h]
    exact fun e => h' (by injection e with e; injection e)
  | cons n q =>
    rw [look, if_neg h]
    exact (nomatch ·)

theorem links_tree {S : Store} {l : List Ent} (h1 : retrieve demoEnv S (treeOf l).id = some (treeText l))
    (h2 : parseTree (treeText l) = some l) (h3 : ∀ e ∈ l, ∀ q x, look demoEnv S ⟨e.type, e.id⟩ q ≠ some (.leaf .symlink x))
    (q : List Str) (x : Str) : look demoEnv S (treeOf l) q ≠ some (.leaf .symlink x) := by
  cases q with
  | nil => exact (nomatch ·)
  | cons n q =>
    rw [show treeOf l = ⟨.tree, (treeOf l).id⟩ from rfl, look_tree h1 h2]
    cases hf : l.find? fun e => e.name = n with
    | none => exact (nomatch ·)
    | some a => exact h3 a (List.mem_of_find?_eq_some hf) q x

theorem plain {S : Store} (h1 : retrieve demoEnv S (treeOf subA).id = some (treeText subA))
    (h2 : retrieve demoEnv S (treeOf tree).id = some (treeText tree)) : Plain demoEnv S (treeOf tree).id where
  names := fun q o ho a ha => by
    have hc : Clean demoEnv S (treeOf tree) := by
      refine clean_demo h2 (by decide +kernel) (by decide +kernel) (by decide +kernel) fun a ha => ?_
      simp only [tree, List.mem_cons, List.not_mem_nil, or_false] at ha
      rcases ha with rfl | rfl | rfl
      · exact clean_demo h1 (by decide +kernel) (by decide +kernel) (by decide +kernel) fun e he => .leaf (by
          revert e
          decide)
      · exact .leaf (by decide)
      · exact .leaf (by decide)
    exact ((look_names hc q o ho).1 a ha).proper
  links := by
    refine links_tree h2 (by decide +kernel) fun a ha => ?_
    simp only [tree, List.mem_cons, List.not_mem_nil, or_false] at ha
    rcases ha with rfl | rfl | rfl
    · refine links_tree h1 (by decide +kernel) fun a ha => links_leaf ?_ ?_
      all_goals
        revert a
        decide
    · exact links_leaf (by decide) (by decide)
    · exact links_leaf (by decide) (by decide)
  full := by
    have : Full S (treeOf tree) := by
      refine full_tree h2 (by decide +kernel) (by decide) fun a ha => ?_
      simp only [tree, List.mem_cons, List.not_mem_nil, or_false] at ha
      rcases ha with rfl | rfl | rfl
      · exact full_tree h1 (by decide +kernel) (by decide) fun a ha => full_leaf (by
          revert a
          decide)
      · exact full_leaf (by decide)
      · exact full_leaf (by decide)
    exact fun q _ => this q

/-- A file system with an empty temporary directory `/t`. -/
def fs : FS := [([['t']], .dir)]

theorem tmp_ok : Tmp fs ['/', 't'] [['t']] where
  path := ⟨by decide +kernel, by decide, by decide +kernel⟩
  wf := ⟨by decide, by decide, by decide⟩
  dir := by decide
  empty := fun q hq => by
    cases hc : fs.at ([['t']] ++ q) with
    | none => rfl
    | some o =>
      have := mem_of_at (by simp) hc
      simp only [fs, List.mem_singleton, Prod.mk.injEq, List.singleton_append, List.cons.injEq, true_and] at this
      exact absurd this.1 hq

theorem repo_ok : Repo demoEnv U [] := ⟨by simp, by simp⟩

/-- Hypotheses of `C81_local_partial` are met. -/
example : ∃ N, ∀ n, N ≤ n → (∀ d ∈ (compute demoEnv e List.reverse n (treeOf tree).id
      (cacheGet demoEnv (treeOf tree).id s0).2).2.cas, d ∈ U) → ∃ M, ∀ m, M ≤ m → ∃ v s' git',
    computeLocally demoEnv e List.reverse n m ['/', 't'] fs (treeOf tree).id s0 [] = .ok (v, s', git') ∧
      ((∀ d ∈ git', d ∈ U) → Result demoEnv e (treeOf tree).id v s0 s' [] git') :=
  C81_local_partial demoEnv_ok U_ok e_length rev reach0 in0 (plain (by decide +kernel) (by decide +kernel)) repo_ok tmp_ok

/-- The result, with an empty cache, with the structure in the cache, and with the structure in the repository. -/
theorem local0 : computeLocally demoEnv e List.reverse 5 5 ['/', 't'] fs (treeOf tree).id s0 [] =
    .ok ((treeOf treeS).id, s1, [treeText treeS, treeText subS]) := by decide +kernel

theorem local1 : computeLocally demoEnv e List.reverse 5 5 ['/', 't'] fs (treeOf tree).id s1 [] =
    .ok ((treeOf treeS).id, s1, [treeText treeS, treeText subS]) := by decide +kernel

theorem local2 : computeLocally demoEnv e List.reverse 5 5 ['/', 't'] fs (treeOf tree).id s1 [treeText treeS, treeText subS] =
    .ok ((treeOf treeS).id, s1, [treeText treeS, treeText subS]) := by decide +kernel

theorem whole_git : Whole demoEnv [treeText treeS, treeText subS] ⟨.tree, (treeOf treeS).id⟩ := by
  refine .tree (l := treeS) (d := treeText treeS) (by decide +kernel) (by decide +kernel)
    ⟨fun a ha => ⟨?_, ?_, ?_, ?_, ?_⟩, by decide +kernel⟩ fun a ha => ?_
  iterate 5
    revert a
    decide +kernel
  simp only [treeS, List.mem_cons, List.not_mem_nil, or_false] at ha
  rcases ha with rfl | rfl | rfl
  · exact .tree (l := subS) (d := treeText subS) (by decide +kernel) (by decide +kernel) (listingOK_spec (by decide +kernel)).1
      fun a ha => .leaf (by
        revert a
        decide)
  · exact .leaf (by decide)
  · exact .leaf (by decide)

theorem result {id : Str} {n : Nat} {s s' : State} (hr : Reach demoEnv U e List.reverse s)
    (hc : compute demoEnv e List.reverse n id s = (some (treeOf treeS).id, s')) (hu : ∀ d ∈ s'.cas, d ∈ U) :
    Result demoEnv e id (treeOf treeS).id s s' [] [treeText treeS, treeText subS] := by
  obtain ⟨h1, h2, h3, h4, h5⟩ := C81_structure demoEnv_ok U_ok e_length rev hr hc hu
  have hi := hr.inv demoEnv_ok U_ok e_length rev
  have hr' : Reach demoEnv U e List.reverse s' := by
    have := hr.compute n id (by rw [hc]; exact hu)
    rwa [hc] at this
  have hi' := hr'.inv demoEnv_ok U_ok e_length rev
  have hg : ∀ d ∈ [treeText treeS, treeText subS], d ∈ U := by decide +kernel
  have hq := h1
  refine ⟨fun q => ?_, ⟨treeText treeS, by simp, rfl⟩, ?_, by simp, h5⟩
  · rw [whole_git.look U_ok hg, ← (hi'.at h2).look U_ok hi'.sub, hq, (hi.at h3).look U_ok hi.sub,
      (hi'.at (h3.mono h5)).look U_ok hi'.sub]
  · obtain ⟨_, g⟩ := compute_works demoEnv_ok U_ok e_length rev n id s s' _ hi hc hu
    exact whole_git.canonical U_ok hg (g _ rfl).1.canonical

/-- Hypotheses of `C81_local_same_partial` are met. -/
example : (treeOf treeS).id = (treeOf treeS).id :=
  C81_local_same_partial U_ok (result reach0 computed s1_in) (result reach1 computed2 s2_in) (by decide +kernel)
    (by decide +kernel) ((C81_same demoEnv_ok U_ok e_length rev reach0 reach1 computed computed2 s1_in s2_in).1 rfl)

/-! ## Violations -/

/-- A directory with a symbolic link. -/
def linked : List Ent := [⟨['l'], .symlink, someId⟩]

def linkedS : List Ent := [⟨['l'], .symlink, e⟩]

/-- **C81, violated.** For a tree with a symbolic link, the structure has an empty symbolic link, and staging such a link is
undefined behaviour: the first segment of the empty path is accessed. -/
theorem C81_violation_link : (compute demoEnv e List.reverse 5 (treeOf linked).id ⟨[treeText linked], [], [[]]⟩).1 =
      some (treeOf linkedS).id ∧
    computeLocally demoEnv e List.reverse 5 5 ['/', 't'] fs (treeOf linked).id ⟨[treeText linked], [], [[]]⟩ [] = .ub := by
  decide +kernel

/-- A directory with a file and an empty directory. -/
def empty : List Ent := [⟨['d'], .tree, (treeOf []).id⟩, ⟨['x'], .file, someId⟩]
def emptyS : List Ent := [⟨['d'], .tree, (treeOf []).id⟩, ⟨['x'], .file, e⟩]
def droppedS : List Ent := [⟨['x'], .file, e⟩]

def t0 : State := ⟨[treeText empty, treeText []], [], [[]]⟩
def t1 : State := ⟨[treeText emptyS, treeText [], treeText empty, treeText []], [((treeOf empty).id, (treeOf emptyS).id),
  ((treeOf []).id, (treeOf []).id)], [[]]⟩

/-- **C81, violated.** If there is an empty subdirectory, the computation reports a tree that is not in the git repository, as the
subdirectory is not staged; and the same computation, done once more, reports another tree. -/
theorem C81_violation_empty : ∃ git, computeLocally demoEnv e List.reverse 5 5 ['/', 't'] fs (treeOf empty).id t0 [] =
      .ok ((treeOf emptyS).id, t1, git) ∧ retrieve demoEnv git (treeOf emptyS).id = none ∧
    computeLocally demoEnv e List.reverse 5 5 ['/', 't'] fs (treeOf empty).id t1 git = .ok ((treeOf droppedS).id, t1,
      treeText droppedS :: git) ∧ (treeOf droppedS).id ≠ (treeOf emptyS).id ∧
    NoCollision demoEnv (treeText droppedS :: git ++ t1.cas) := by
  refine ⟨[treeText droppedS], ?_⟩
  unfold NoCollision
  decide +kernel

end Verif.Struct.Example
