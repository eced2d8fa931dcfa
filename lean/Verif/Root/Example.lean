import Mathlib.Data.List.Nodup
import Verif.Root.Props

/-!
# Source roots: examples and violations
-/

namespace Verif.Root

open Verif.Path

/-! ## Comparing concrete trees -/

mutual
/-- Whether two nodes are equal. -/
def decNode : (a b : Node) → Decidable (a = b)
  | .file c x, .file c' x' =>
    if h : c = c' ∧ x = x' then isTrue (by rw [h.1, h.2]) else isFalse fun e => by
      injection e with e1 e2
      exact h ⟨e1, e2⟩
  | .link c, .link c' =>
    if h : c = c' then isTrue (by rw [h]) else isFalse fun e => by
      injection e with e1
      exact h e1
  | .other, .other => isTrue rfl
  | .dir es, .dir es' =>
    match decEntries es es' with
    | isTrue h => isTrue (by rw [h])
    | isFalse h => isFalse fun e => by
      injection e with e1
      exact h e1
  | .file .., .link _ => isFalse nofun
  | .file .., .other => isFalse nofun
  | .file .., .dir _ => isFalse nofun
  | .link _, .file .. => isFalse nofun
  | .link _, .other => isFalse nofun
  | .link _, .dir _ => isFalse nofun
  | .other, .file .. => isFalse nofun
  | .other, .link _ => isFalse nofun
  | .other, .dir _ => isFalse nofun
  | .dir _, .file .. => isFalse nofun
  | .dir _, .link _ => isFalse nofun
  | .dir _, .other => isFalse nofun
/-- The same for entries. -/
def decEntries : (a b : Entries) → Decidable (a = b)
  | [], [] => isTrue rfl
  | [], _ :: _ => isFalse nofun
  | _ :: _, [] => isFalse nofun
  | (x, n) :: es, (x', n') :: es' =>
    match decNode n n', decEntries es es' with
    | isTrue h, isTrue h' =>
      if hx : x = x' then isTrue (by rw [h, h', hx]) else isFalse fun e => by
        injection e with e1 e2
        injection e1 with e3 e4
        exact hx e3
    | isFalse h, _ => isFalse fun e => by
      injection e with e1 e2
      injection e1 with e3 e4
      exact h e4
    | _, isFalse h => isFalse fun e => by
      injection e with e1 e2
      exact h e2
end

instance : DecidableEq Node := decNode

deriving instance DecidableEq for State
deriving instance DecidableEq for Listing
deriving instance DecidableEq for Read
deriving instance DecidableEq for Reply

/-! ## Checking ids of concrete trees -/

mutual
/-- The contents of all directories of a tree. -/
def dirs : Node → List Entries
  | .dir es => es :: dirsIn es
  | _ => []
/-- The same for entries. -/
def dirsIn : Entries → List Entries
  | [] => []
  | (_, n) :: es => dirs n ++ dirsIn es
end

theorem mem_dirsIn {es : Entries} {x : Str} {n : Node} (h : (x, n) ∈ es) {d : Entries} (hd : d ∈ dirs n) : d ∈ dirsIn es := by
  induction es with
  | nil => cases h
  | cons e t ih =>
    obtain ⟨y, m⟩ := e
    unfold dirsIn
    rcases List.mem_cons.1 h with e | h
    · cases e
      exact List.mem_append_left _ hd
    · exact List.mem_append_right _ (ih h)

theorem dirs_under {n m : Node} {p : List Str} (h : Under n p m) : dirs m ⊆ dirs n := by
  induction h with
  | here => exact List.Subset.refl _
  | step _ hm ih =>
    intro d hd
    apply ih
    unfold dirs
    exact List.mem_cons_of_mem _ (mem_dirsIn hm hd)

theorem mem_dirs {n : Node} {p : List Str} {es : Entries} (h : Under n p (.dir es)) : es ∈ dirs n :=
  dirs_under h (by
    unfold dirs
    simp)

theorem noClash_of {H : Node → Str} {content : Entries} (h : ((dirs (.dir content)).map fun es => H (.dir es)).Nodup) :
    NoClash H content := by
  intro p q es es' hp hq e
  exact List.inj_on_of_nodup_map h (mem_dirs hp) (mem_dirs hq) e

/-! ## A root with links -/

/-- The names, in place of an id. -/
def exH : Node → Str
  | .dir es => joinWith '/' (es.map Prod.fst)
  | _ => []

/-- A directory with a file and a link to it. -/
def exSub : Entries := [("f".toList, .file "F".toList false), ("l".toList, .link "f".toList)]

/-- A valid tree. -/
def exTree : Entries := [("TARGETS".toList, .file "{}".toList false), ("src".toList, .dir exSub)]

/-- As git tree. -/
def exGit : GitRoot := ⟨exTree, false, exH⟩

/-- In the file system. -/
def exFile : FileRoot := ⟨exTree, false⟩

instance (a : Str) : Decidable (ProperName a) := inferInstanceAs (Decidable (_ ∧ _))

instance (l : List Str) : Decidable (Names l) := inferInstanceAs (Decidable (∀ a ∈ l, ProperName a))

instance (c : Str) : Decidable (Inside c) := inferInstanceAs (Decidable (_ ∧ _))

theorem exSub_named : Named (.dir exSub) := by
  refine .dir (by decide) (by decide) ?_
  intro e he
  rcases List.mem_cons.1 he with rfl | he
  · exact .file _ _
  · rw [List.mem_singleton.1 he]
    exact .link _

theorem exTree_named : Named (.dir exTree) := by
  refine .dir (by decide) (by decide) ?_
  intro e he
  rcases List.mem_cons.1 he with rfl | he
  · exact .file _ _
  · rw [List.mem_singleton.1 he]
    exact exSub_named

theorem exSub_valid : Valid (.dir exSub) := by
  refine .dir ?_
  intro e he
  rcases List.mem_cons.1 he with rfl | he
  · exact .file _ _
  · rw [List.mem_singleton.1 he]
    exact .link (by decide)

theorem exTree_valid : Valid (.dir exTree) := by
  refine .dir ?_
  intro e he
  rcases List.mem_cons.1 he with rfl | he
  · exact .file _ _
  · rw [List.mem_singleton.1 he]
    exact exSub_valid

theorem exGit_noClash : NoClash exGit.H exGit.content := noClash_of (by decide)

/-- The state after asking for the link. -/
def exState : State := ⟨[((false, ["src".toList]), false)], []⟩

theorem exState_reached : Reached exGit exState :=
  .ask (q := .source "src".toList "l".toList) (r := .source (some (.link "f".toList))) .start (by decide +kernel)

example : (exGit.answer exState (.directory [])).map Prod.fst = (exGit.answer ⟨[], []⟩ (.directory [])).map Prod.fst :=
  C85_history rfl exGit_noClash exState_reached .start _

example : ∃ r st', exGit.answer exState (.source "src".toList "l".toList) = some (r, st') ∧
    Right (.dir exTree) (.source ["src".toList] ["l".toList]) r :=
  C85_git (a := .source ["src".toList] ["l".toList]) rfl exGit_noClash exTree_valid exState_reached
    ⟨by decide, by decide, by decide⟩

theorem exSub_deep : Deep 1 (.dir exSub) := by
  refine .dir ?_
  intro e he
  rcases List.mem_cons.1 he with rfl | he
  · exact .leaf (by simp)
  · rw [List.mem_singleton.1 he]
    exact .leaf (by simp)

example : ∃ st', treeTarget exGit.reader 1 exState "src".toList = some (some (.dir exSub), st') ∧ Reached exGit st' :=
  C85_tree_git (l := ["src".toList]) rfl exGit_noClash exTree_valid exTree_named exState_reached (by decide) (by decide +kernel) exSub_deep

example : treeTarget exFile.reader 1 () "src".toList = some (some (.dir exSub), ()) :=
  C85_tree_file (l := ["src".toList]) exTree_named (fun _ => exTree_valid) (by decide) (by decide +kernel) exSub_deep

theorem exLink : NoLinkOn (.dir exTree) ["src".toList, "l".toList] := noLink_of_find (m := .link "f".toList) (by decide +kernel)

example : ∃ r, exFile.answer (.source "src".toList "l".toList) = some r ∧
    Right (shown false exTree) (.source ["src".toList] ["l".toList]) r :=
  C85_file (F := exFile) (a := .source ["src".toList] ["l".toList]) exTree_named (fun _ => exTree_valid)
    ⟨by decide, by decide, by decide⟩ exLink

example : ∃ r r' st', exGit.answer exState (.source "src".toList "l".toList) = some (r, st') ∧
    exFile.answer (.source "src".toList "l".toList) = some r' ∧ Alike r r' :=
  C85_agree (a := .source ["src".toList] ["l".toList]) (F := exFile) rfl rfl rfl exGit_noClash exTree_valid exTree_named
    exState_reached ⟨by decide, by decide, by decide⟩ exLink

/-! ## A root with something to ignore -/

/-- A tree with a link leading upwards next to a file, at the first level, and a submodule. -/
def exUp : Entries := [("TARGETS".toList, .file "{}".toList false), ("m".toList, .other),
  ("src".toList, .dir [("f".toList, .file "F".toList false), ("l".toList, .link "../x".toList)])]

/-- As git tree, ignoring special entries. -/
def exIgn : GitRoot := ⟨exUp, true, exH⟩

theorem exUp_named : Named (.dir exUp) := by
  refine .dir (by decide) (by decide) ?_
  intro e he
  rcases List.mem_cons.1 he with rfl | he
  · exact .file _ _
  rcases List.mem_cons.1 he with rfl | he
  · exact .other
  rw [List.mem_singleton.1 he]
  refine .dir (by decide) (by decide) ?_
  intro e he
  rcases List.mem_cons.1 he with rfl | he
  · exact .file _ _
  · rw [List.mem_singleton.1 he]
    exact .link _

mutual
/-- All places with directories. -/
def dirPaths (p : List Str) : Node → List (List Str)
  | .dir es => p :: dirPathsIn p es
  | _ => []
/-- The same for entries. -/
def dirPathsIn (p : List Str) : Entries → List (List Str)
  | [] => []
  | (x, n) :: es => dirPaths (p ++ [x]) n ++ dirPathsIn p es
end

theorem mem_dirPathsIn {es : Entries} {x : Str} {n : Node} (h : (x, n) ∈ es) {p d : List Str}
    (hd : d ∈ dirPaths (p ++ [x]) n) : d ∈ dirPathsIn p es := by
  induction es with
  | nil => cases h
  | cons e t ih =>
    obtain ⟨y, m⟩ := e
    unfold dirPathsIn
    rcases List.mem_cons.1 h with e | h
    · cases e
      exact List.mem_append_left _ hd
    · exact List.mem_append_right _ (ih h)

theorem dirPaths_under {n m : Node} {p : List Str} (h : Under n p m) : dirPaths p m ⊆ dirPaths [] n := by
  induction h with
  | here => exact List.Subset.refl _
  | step _ hm ih =>
    intro d hd
    apply ih
    unfold dirPaths
    exact List.mem_cons_of_mem _ (mem_dirPathsIn hm hd)

theorem exUp_shallow : Shallow exUp := by
  intro p es x n hu hp _
  have h : p ∈ dirPaths [] (.dir exUp) := dirPaths_under hu (by
    unfold dirPaths
    simp)
  have : ∀ p ∈ dirPaths [] (.dir exUp), p.length < 2 := by decide
  exact absurd hp (by have := this p h; omega)

/-- The state after asking for the file. -/
def exState2 : State := ⟨[((false, ["src".toList]), true)], []⟩

theorem exState2_reached : Reached exIgn exState2 :=
  .ask (q := .source "src".toList "f".toList) (r := .source (some (.file "F".toList false))) .start (by decide +kernel)

example : ∃ r st', exIgn.answer exState2 (.source "src".toList "l".toList) = some (r, st') ∧
    Right (shown true exUp) (.source ["src".toList] ["l".toList]) r :=
  C85_git_ignoring_partial (a := .source ["src".toList] ["l".toList]) rfl exUp_shallow exState2_reached
    ⟨by decide, by decide, by decide⟩

example : ∃ st', treeTarget exIgn.reader 1 exState2 "src".toList =
    some (some (.dir [("f".toList, .file "F".toList false)]), st') ∧ Reached exIgn st' :=
  C85_tree_ignoring_partial (l := ["src".toList]) rfl exUp_shallow exUp_named exState2_reached (by decide) (by decide +kernel)
    (.dir (by
      intro e he
      rw [List.mem_singleton.1 he]
      exact .leaf (by simp)))

/-! ## Violations -/

/-- A root ignoring special entries, with a link two levels below. -/
def badIgn : GitRoot := ⟨[("a".toList, .dir [("b".toList, .dir exSub)])], true, exH⟩

/-- What is remembered after asking for the file next to the link. -/
def badState : State := ⟨[((false, ["a".toList, "b".toList]), false), ((false, ["a".toList]), true)], []⟩

/-- What is remembered after referring to the tree, without asking for the file first. -/
def badState1 : State := ⟨[((false, ["a".toList, "b".toList]), true), ((false, ["a".toList]), true)], []⟩

/-- **C85 is violated.** (V59) Depending on what was asked before, a reference to a source tree of a git root ignoring special
entries stands for different trees: with a symbolic link, and without. (git_tree.cpp:49 drops the flag; the tree is then cached.) -/
theorem C85_violated_order : ∃ (G : GitRoot) (st s1 s2 : State) (es es' : Entries), G.ign = true ∧ NoClash G.H G.content ∧
    Named (.dir G.content) ∧ Valid (.dir G.content) ∧ Reached G st ∧
    treeTarget G.reader 10 ⟨[], []⟩ "a".toList = some (some (.dir es), s1) ∧
    treeTarget G.reader 10 st "a".toList = some (some (.dir es'), s2) ∧
    (Node.dir es).find ["b".toList, "l".toList] = none ∧ (Node.dir es').find ["b".toList, "l".toList] = some (.link "f".toList) := by
  refine ⟨badIgn, badState, badState1, badState, [("b".toList, .dir [("f".toList, .file "F".toList false)])],
    [("b".toList, .dir exSub)], rfl, noClash_of (by decide), ?_, ?_, ?_, by decide +kernel, by decide +kernel, by decide +kernel,
    by decide +kernel⟩
  · refine .dir (by decide) (by decide) ?_
    intro e he
    rw [List.mem_singleton.1 he]
    refine .dir (by decide) (by decide) ?_
    intro e he
    rw [List.mem_singleton.1 he]
    exact exSub_named
  · refine .dir ?_
    intro e he
    rw [List.mem_singleton.1 he]
    refine .dir ?_
    intro e he
    rw [List.mem_singleton.1 he]
    exact exSub_valid
  · exact .ask (q := .source "a".toList "b/f".toList) (r := .source (some (.file "F".toList false))) .start (by decide +kernel)

/-- A root ignoring special entries, with a link leading upwards two levels below. -/
def badDeep : GitRoot :=
  ⟨[("a".toList, .dir [("b".toList, .dir [("f".toList, .file "F".toList false), ("l".toList, .link "../f".toList)])])], true, exH⟩

/-- **C85 is violated.** (V59) A file shown by a git root ignoring special entries is not found, because of a symbolic link next to
it; it is found in a root in the file system with the same content. -/
theorem C85_violated_deep : ∃ (G : GitRoot) (F : FileRoot) (st : State), G.ign = true ∧ F.ign = true ∧ F.content = G.content ∧
    (shown true G.content).find ["a".toList, "b".toList, "f".toList] = some (.file "F".toList false) ∧
    G.answer ⟨[], []⟩ (.source "a".toList "b/f".toList) = some (.source none, st) ∧
    F.answer (.source "a".toList "b/f".toList) = some (.source (some (.file "F".toList false))) :=
  ⟨badDeep, ⟨badDeep.content, true⟩, badState, rfl, rfl, rfl, by decide +kernel, by decide +kernel, by decide +kernel⟩

/-- A valid tree with a link to a directory. -/
def badLink : Entries := [("d".toList, .link "e".toList), ("e".toList, .dir [("TARGETS".toList, .file "{}".toList false)])]

/-- **C85 is violated.** (V60) Through a symbolic link to a directory, files are found in a root in the file system, but not in a
git root with the same content. -/
theorem C85_violated_link : ∃ (G : GitRoot) (F : FileRoot) (st : State), G.ign = false ∧ F.ign = false ∧ F.content = G.content ∧
    Valid (.dir G.content) ∧ G.answer ⟨[], []⟩ (.json "d/TARGETS".toList) = some (.json .absent, st) ∧
    F.answer (.json "d/TARGETS".toList) = some (.json (.content "{}".toList)) := by
  refine ⟨⟨badLink, false, exH⟩, ⟨badLink, false⟩, ⟨[], []⟩, rfl, rfl, rfl, ?_, by decide +kernel, by decide +kernel⟩
  refine .dir ?_
  intro e he
  rcases List.mem_cons.1 he with rfl | he
  · exact .link (by decide)
  · rw [List.mem_singleton.1 he]
    refine .dir ?_
    intro e he
    rw [List.mem_singleton.1 he]
    exact .file _ _

end Verif.Root
