import Verif.Repo.ArtifactsRootProps
import Verif.Tree.Props

/-!
# Roots computed from artifacts: examples and violation (C79)
-/

namespace Verif.Roots.Example

open Verif.Dig (ObjectType)
open Verif.Path
open Verif.Roots
open Verif.Tree (Info Obs Env Store NoCollision Ent look demoEnv demoEnv_ok treeOf treeText subA someId otherId)

def decideName (a : Str) : Bool :=
  decide ('/' ∉ a) && decide (a ≠ []) && decide (a ≠ dot) && decide (a ≠ dotdot) && a.all (fun c => c.toNat != 0) &&
    decide (a.length ≤ 65535)

theorem name_of {a : Str} (h : decideName a = true) : Name a := by
  simp only [decideName, Bool.and_eq_true, decide_eq_true_eq, List.all_eq_true, bne_iff_ne] at h
  obtain ⟨⟨⟨⟨⟨h1, h2⟩, h3⟩, h4⟩, h5⟩, h6⟩ := h
  exact ⟨⟨h1, h2, h3, h4⟩, h5, h6⟩

def decideStaged (stage : OMap Str (Option Info)) (P : List (List Str × Info)) : Bool :=
  decide (stage.items = P.map fun x => (joinWith '/' x.1, some x.2)) && P.all (fun x => decide (x.1 ≠ [])) &&
    P.all (fun x => x.1.all decideName) &&
    P.all (fun x => P.all fun y => !decide (x.1 <+: y.1) || decide (x.1 = y.1)) &&
    P.all (fun x => decide (x.2.id.length = 20))

theorem staged_of {stage : OMap Str (Option Info)} {P : List (List Str × Info)} (h : decideStaged stage P = true) :
    Staged stage P := by
  simp only [decideStaged, Bool.and_eq_true, decide_eq_true_eq, List.all_eq_true, Bool.or_eq_true, Bool.not_eq_true',
    decide_eq_false_iff_not] at h
  obtain ⟨⟨⟨⟨h1, h2⟩, h3⟩, h4⟩, h5⟩ := h
  refine ⟨h1, h2, fun x hx a ha => name_of (h3 x hx a ha), fun x hx y hy hp => ?_, h5⟩
  rcases h4 x hx y hy with h | h
  · exact absurd hp h
  · exact h

/-- Artifacts in nested directories, with names that are next to a slash in the order of characters. -/
def paths : List (List Str × Info) :=
  [(["a".toList, "b.txt".toList], ⟨.file, someId⟩), (["a".toList, "b".toList, "x".toList], ⟨.executable, otherId⟩),
   (["a".toList, "c".toList, "y".toList, "z".toList], treeOf subA), (["d".toList], ⟨.symlink, someId⟩)]

def stage : OMap Str (Option Info) := ⟨paths.map fun x => (joinWith '/' x.1, some x.2), by
  unfold Ascending; decide⟩

theorem stage_staged : Staged stage paths := staged_of (by decide +kernel)

/-- Hypotheses of `C79_root_partial` are met. -/
example : ∃ root made, artifactsRoot demoEnv.H stage = .ok (root, made) ∧
    ∀ S, NoCollision demoEnv S → (∀ c ∈ made, c ∈ S) → Content demoEnv S paths (look demoEnv S ⟨.tree, root⟩) :=
  C79_root_partial demoEnv_ok stage_staged

/-- A store with everything that has been created, and the tree among the artifacts. -/
def made : List Str := match artifactsRoot demoEnv.H stage with
  | .ok r => treeText subA :: r.2
  | _ => []

def root : Str := match artifactsRoot demoEnv.H stage with
  | .ok r => r.1
  | _ => []

example : made.length = 6 ∧ NoCollision demoEnv made ∧
    look demoEnv made ⟨.tree, root⟩ ["a".toList, "b".toList, "x".toList] = some (.leaf .executable otherId) ∧
    look demoEnv made ⟨.tree, root⟩ ["a".toList, "c".toList, "y".toList, "z".toList, "p".toList] = some (.leaf .file someId) ∧
    look demoEnv made ⟨.tree, root⟩ ["a".toList, "c".toList, "y".toList] = some .dir ∧
    look demoEnv made ⟨.tree, root⟩ ["a".toList, "c".toList, "x".toList] = none := by
  unfold NoCollision
  decide +kernel

/-- Hypotheses of `C79_error` are met. -/
example : artifactsRoot demoEnv.H ⟨stage.items ++ [("e".toList, none)], by
    unfold Ascending stage; decide⟩ = .error :=
  C79_error demoEnv_ok stage_staged (k := "e".toList) (rest := []) rfl

/-! ## The same content -/

/-- A directory with one file, as tree. -/
def one : List Ent := [⟨['p'], .file, someId⟩]

def asTree : List (List Str × Info) := [([['d']], treeOf one)]
def asFile : List (List Str × Info) := [([['d'], ['p']], ⟨.file, someId⟩)]

def stageTree : OMap Str (Option Info) := ⟨[(['d'], some (treeOf one))], by unfold Ascending; decide⟩
def stageFile : OMap Str (Option Info) := ⟨[(['d', '/', 'p'], some ⟨.file, someId⟩)], by unfold Ascending; decide⟩

/-- The content of a directory with the one file. -/
def rootText : Str := treeText [⟨['d'], .tree, (treeOf one).id⟩]
def rootId : Str := demoEnv.H rootText
def both : Store := [treeText one, rootText]

theorem both_ok : NoCollision demoEnv both := by
  unfold NoCollision
  decide +kernel

theorem one_listing : Tree.Listing one := (Tree.listingOK_spec (by decide)).1

theorem one_canonical : Canonical demoEnv both (treeOf one) :=
  .tree one_listing (by unfold one; exact List.pairwise_singleton _ _) (List.mem_cons_self ..) (fun e he => by
    rw [List.mem_singleton.1 he]
    exact .leaf (by decide))

/-- Both ways to give the directory have the same content. -/
theorem same_content (f f' : List Str → Option Obs) (h : Content demoEnv both asTree f)
    (h' : Content demoEnv both asFile f') : f = f' := by
  have hl : ∀ n q, look demoEnv both (treeOf one) (n :: q) =
      (Tree.get n (one.map Ent.pair)).bind fun i => look demoEnv both i q :=
    fun n q => look_listing both_ok one_listing (List.mem_cons_self ..) n q
  funext p
  cases p with
  | nil => rw [h.above [] (.inl rfl), h'.above [] (.inl rfl)]
  | cons n p =>
    by_cases hn : n = ['d']
    · subst hn
      have h1 := h.artifact _ (List.mem_singleton.2 rfl) p
      rw [List.singleton_append] at h1
      rw [h1]
      cases p with
      | nil =>
        rw [h'.above [['d']] (.inr ⟨_, List.mem_singleton.2 rfl, by decide⟩)]
        rfl
      | cons m q =>
        rw [hl]
        by_cases hm : m = ['p']
        · subst hm
          have h2 := h'.artifact _ (List.mem_singleton.2 rfl) q
          exact h2.symm
        · have : Tree.get m (one.map Ent.pair) = none := by
            refine Tree.get_none.2 fun x hx => ?_
            rw [List.mem_singleton.1 hx]
            exact fun e => hm e.symm
          rw [this, h'.nothing _ (by simp) fun x hx => ?_]
          · rfl
          · rw [List.mem_singleton.1 hx]
            constructor
            · rintro ⟨l, hl⟩
              rw [List.cons_append, List.cons_append] at hl
              injection hl with _ hl
              injection hl with hl _
              exact hm hl
            · rintro ⟨l, hl⟩
              rw [List.cons_append, List.cons_append] at hl
              injection hl with _ hl
              injection hl with hl _
              exact hm hl.symm
    · rw [h.nothing _ (by simp) fun x hx => ?_, h'.nothing _ (by simp) fun x hx => ?_]
      all_goals
        rw [List.mem_singleton.1 hx]
        constructor
        · rintro ⟨l, hl⟩
          rw [List.cons_append] at hl
          injection hl with hl _
          exact hn hl
        · rintro ⟨l, hl⟩
          rw [List.cons_append] at hl
          injection hl with hl _
          exact hn hl.symm

theorem run_tree : artifactsRoot demoEnv.H stageTree = .ok (rootId, [rootText]) := by decide +kernel
theorem run_file : artifactsRoot demoEnv.H stageFile = .ok (rootId, [rootText, treeText one]) := by decide +kernel

/-- Hypotheses of `C79_same_partial` are met. -/
example : rootId = rootId :=
  C79_same_partial demoEnv_ok (stage := stageTree) (stage' := stageFile) (P := asTree) (P' := asFile)
    (staged_of (by decide +kernel)) (staged_of (by decide +kernel)) run_tree run_file (S := both) both_ok
    (by decide +kernel)
    (fun x hx => by
      rcases List.mem_cons.1 hx with rfl | hx
      · exact one_canonical
      · rw [List.mem_singleton.1 hx]
        exact .leaf (by decide)) same_content

/-! ## Violation -/

/-- A tree staged as the whole directory, which is accepted if it is the only artifact. -/
def stageDot : OMap Str (Option Info) := ⟨[(dot, some (treeOf one))], by unfold Ascending; decide⟩

/-- **C79, violated.** If the only artifact is a tree staged as `.`, then the root is not that tree but a tree with an entry
`.`; the file of the tree is not at its place. -/
theorem C79_violation_dot : ∃ root text, artifactsRoot demoEnv.H stageDot = .ok (root, [text]) ∧
    NoCollision demoEnv [treeText one, text] ∧
    look demoEnv [treeText one, text] (treeOf one) [['p']] = some (.leaf .file someId) ∧
    look demoEnv [treeText one, text] ⟨.tree, root⟩ [['p']] = none ∧
    look demoEnv [treeText one, text] ⟨.tree, root⟩ [dot, ['p']] = some (.leaf .file someId) := by
  refine ⟨demoEnv.H (treeText [⟨dot, .tree, (treeOf one).id⟩]), treeText [⟨dot, .tree, (treeOf one).id⟩], ?_⟩
  unfold NoCollision
  decide +kernel

end Verif.Roots.Example
