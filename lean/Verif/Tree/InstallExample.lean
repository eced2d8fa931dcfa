import Verif.Tree.InstallImport
import Verif.Repo.ArtifactsRootExample

/-!
# Installing artifacts: examples and violations (C80)
-/

namespace Verif.Install.Example

open Verif.Dig (ObjectType)
open Verif.Path
open Verif.Roots (Out Name Content Canonical Staged artifactsRoot)
open Verif.Roots.Example (name_of decideName staged_of)
open Verif.Tree (Info Obs Env Store Ent Listing NoCollision look retrieve parseTree demoEnv demoEnv_ok treeOf treeText subA
  someId otherId listingOK listingOK_spec)

/-! ## For examples: trees -/

theorem clean_demo {S : Store} {l : List Ent} (h1 : retrieve demoEnv S (treeOf l).id = some (treeText l))
    (h2 : parseTree (treeText l) = some l) (h3 : listingOK l = true) (h4 : (l.all fun e => decideName e.name) = true)
    (h5 : ∀ e ∈ l, Clean demoEnv S ⟨e.type, e.id⟩) : Clean demoEnv S (treeOf l) := by
  refine .tree (fun d l' hr hp => ?_) (fun d l' hr hp => ?_)
  · cases (show treeText l = d from Option.some.inj (h1.symm.trans hr))
    cases h2.symm.trans hp
    exact ⟨(listingOK_spec h3).1, fun e he => (name_of (List.all_eq_true.1 h4 e he)).proper⟩
  · cases (show treeText l = d from Option.some.inj (h1.symm.trans hr))
    cases h2.symm.trans hp
    exact h5

/-- Every directory in an object has a file below it. -/
def Full (S : Store) (i : Info) : Prop :=
  ∀ q, look demoEnv S i q = some .dir → ∃ r ty id, look demoEnv S i (q ++ r) = some (.leaf ty id)

theorem full_leaf {S : Store} {i : Info} (h : i.type ≠ .tree) : Full S i := by
  intro q hq
  cases q with
  | nil =>
    rw [look, if_neg h] at hq
    cases hq
  | cons n q =>
    rw [look, if_neg h] at hq
    cases hq

theorem full_tree {S : Store} {l : List Ent} (h1 : retrieve demoEnv S (treeOf l).id = some (treeText l))
    (h2 : parseTree (treeText l) = some l) (h3 : l ≠ []) (h4 : ∀ e ∈ l, Full S ⟨e.type, e.id⟩) : Full S (treeOf l) := by
  have hl : ∀ n q, look demoEnv S (treeOf l) (n :: q) =
      (l.find? fun e => e.name = n).bind fun e => look demoEnv S ⟨e.type, e.id⟩ q := by
    intro n q
    rw [look, if_pos (show (treeOf l).type = .tree from rfl), h1, Option.bind_some, h2, Option.bind_some]
  intro q hq
  cases q with
  | nil =>
    obtain ⟨e, t, rfl⟩ : ∃ e t, l = e :: t := by
      cases l with
      | nil => exact absurd rfl h3
      | cons e t => exact ⟨e, t, rfl⟩
    have hf : ((e :: t).find? fun e' => e'.name = e.name) = some e := by simp
    obtain ⟨o, ho⟩ := Roots.look_some demoEnv S ⟨e.type, e.id⟩
    cases o with
    | leaf ty id => exact ⟨[e.name], ty, id, by rw [List.nil_append, hl, hf]; exact ho⟩
    | dir =>
      obtain ⟨r, ty, id, hr⟩ := h4 e (by simp) [] ho
      exact ⟨e.name :: r, ty, id, by rw [List.nil_append, hl, hf]; exact hr⟩
  | cons n q =>
    rw [hl] at hq
    cases hf : l.find? fun e => e.name = n with
    | none =>
      rw [hf] at hq
      cases hq
    | some e =>
      rw [hf] at hq
      obtain ⟨r, ty, id, hr⟩ := h4 e (List.mem_of_find?_eq_some hf) q hq
      exact ⟨r, ty, id, by rw [List.cons_append, hl, hf]; exact hr⟩

/-! ## Artifacts -/

/-- The id of the content of a symbolic link. -/
def linkId : Str := List.replicate 20 'l'

/-- A directory with a subdirectory, a file, and a symbolic link. -/
def tree : List Ent := [⟨['d'], .tree, (treeOf subA).id⟩, ⟨['x'], .file, someId⟩, ⟨['y'], .symlink, linkId⟩]

def artifacts : List (List Str × Info) := [([['a']], treeOf tree), ([['b'], ['c']], ⟨.executable, otherId⟩)]

def stage : OMap Str (Option Info) := ⟨[(['a'], some (treeOf tree)), (['b', '/', 'c'], some ⟨.executable, otherId⟩)], by
  unfold Ascending; decide⟩

def bText : Str := treeText [⟨['c'], .executable, otherId⟩]
def rootText : Str := treeText [⟨['a'], .tree, (treeOf tree).id⟩, ⟨['b'], .tree, demoEnv.H bText⟩]

def store : Store := [treeText subA, treeText tree, bText, rootText]

def cas : Cas where
  trees := [treeText subA, treeText tree]
  blob := fun i => if i = linkId then some ['d', '/', 'p'] else if i = someId ∨ i = otherId then some ['z'] else none
  ord := List.reverse

theorem store_ok : NoCollision demoEnv store := by
  unfold NoCollision
  decide +kernel

theorem cas_in : cas.In store := ⟨by decide +kernel, fun l => List.reverse_perm l⟩

theorem subA_clean : Clean demoEnv store (treeOf subA) :=
  clean_demo (by decide +kernel) (by decide +kernel) (by decide +kernel) (by decide +kernel) fun e he => .leaf (by
    revert e
    decide)

theorem tree_clean : Clean demoEnv store (treeOf tree) := by
  refine clean_demo (by decide +kernel) (by decide +kernel) (by decide +kernel) (by decide +kernel) fun e he => ?_
  simp only [tree, List.mem_cons, List.not_mem_nil, or_false] at he
  rcases he with rfl | rfl | rfl
  · exact subA_clean
  · exact .leaf (by decide)
  · exact .leaf (by decide)

theorem plan : Plan demoEnv store artifacts where
  nonempty := by decide
  names := fun x hx a ha => (name_of (by
    revert a
    revert x
    decide)).proper
  free := by decide +kernel
  clean := by
    intro x hx
    simp only [artifacts, List.mem_cons, List.not_mem_nil, or_false] at hx
    rcases hx with rfl | rfl
    · exact tree_clean
    · exact .leaf (by decide)

theorem full : NoEmptyDirs demoEnv store artifacts := by
  intro x hx
  simp only [artifacts, List.mem_cons, List.not_mem_nil, or_false] at hx
  rcases hx with rfl | rfl
  · refine full_tree (by decide +kernel) (by decide +kernel) (by decide) fun e he => ?_
    simp only [tree, List.mem_cons, List.not_mem_nil, or_false] at he
    rcases he with rfl | rfl | rfl
    · exact full_tree (by decide +kernel) (by decide +kernel) (by decide) fun e he => full_leaf (by
        revert e
        decide)
    · exact full_leaf (by decide)
    · exact full_leaf (by decide)
  · exact full_leaf (by decide)

theorem present : ∀ x ∈ artifacts, Present demoEnv cas x.2 := by
  have hs : Present demoEnv cas (treeOf subA) := by
    refine .tree (d := treeText subA) (l := subA) (by decide +kernel) (by decide +kernel) (by decide) fun e he => ?_
    refine .blob (c := ['z']) ?_ ?_ ?_
    all_goals revert e; decide
  intro x hx
  simp only [artifacts, List.mem_cons, List.not_mem_nil, or_false] at hx
  rcases hx with rfl | rfl
  · refine .tree (d := treeText tree) (l := tree) (by decide +kernel) (by decide +kernel) ?_ fun e he => ?_
    · intro e he ht
      simp only [tree, List.mem_cons, List.not_mem_nil, or_false] at he
      rcases he with rfl | rfl | rfl
      · cases ht
      · cases ht
      · exact ⟨['d', '/', 'p'], by decide, by decide +kernel⟩
    · simp only [tree, List.mem_cons, List.not_mem_nil, or_false] at he
      rcases he with rfl | rfl | rfl
      · exact hs
      · exact .blob (c := ['z']) (by decide) (by decide) (by decide)
      · exact .blob (c := ['d', '/', 'p']) (by decide) (by decide) (by decide)
  · exact .blob (c := ['z']) (by decide) (by decide) (by decide)

/-! ## File systems -/

/-- A home directory with a file. -/
def home : FS := [([['h']], .dir), ([['h'], ['f']], .leaf .file otherId)]

def out : Str := ['o', 'u', 't']
def outDir : List Str := [['h'], out]

theorem home_wf : home.WF := ⟨by decide, by decide, by decide⟩

theorem home_at {p : List Str} {o : Obs} (hp : p ≠ []) (h : home.at p = some o) :
    p = [['h']] ∧ o = .dir ∨ p = [['h'], ['f']] ∧ o = .leaf .file otherId := by
  have := mem_of_at hp h
  simpa [home] using this

theorem resolved : resolve [['h']] out = outDir := by decide +kernel

theorem home_empty (q : List Str) (_ : q ≠ []) : home.at (resolve [['h']] out ++ q) = none := by
  rw [resolved]
  cases hc : home.at (outDir ++ q) with
  | none => rfl
  | some o =>
    rcases home_at (by simp [outDir]) hc with ⟨e, _⟩ | ⟨e, _⟩
    · cases e
    · have : out = ['f'] := by
        have := congrArg (fun l : List Str => l.tail.head?) e
        simpa [outDir] using this
      exact absurd this (by decide)

theorem room : Room demoEnv store (resolve [['h']] out) artifacts home := by
  have hnl : ∀ p, p <+: outDir → ∀ ty id, home.at p ≠ some (.leaf ty id) := by
    intro p hp ty id e
    by_cases h0 : p = []
    · subst h0
      cases e
    · rcases home_at h0 e with ⟨_, e'⟩ | ⟨rfl, _⟩
      · cases e'
      · revert hp
        decide
  refine ⟨fun p hp => hnl p (resolved ▸ hp), fun p q ty id _ hf ty' id' e => ?_, fun p ty id hf e => ?_⟩
  · by_cases h0 : p = []
    · subst h0
      rw [List.append_nil, resolved] at e
      exact hnl outDir (List.prefix_refl _) _ _ e
    · rw [home_empty p h0] at e
      cases e
  · obtain ⟨x, hx, q, rfl, _⟩ := hf
    rw [home_empty _ (by simp [plan.nonempty x hx])] at e
    cases e

/-- The file system afterwards. -/
def after : FS := match install demoEnv cas none 5 [['h']] out (request artifacts) home with
  | .ok r => r.2
  | _ => []

theorem installed : install demoEnv cas none 5 [['h']] out (request artifacts) home = .ok (true, after) := by decide +kernel

/-- Hypotheses of `C80_files`, `C80_content_partial`, and `C80_confined` are met. -/
example : after.at (outDir ++ [['a'], ['d'], ['p']]) = some (.leaf .file someId) ∧
    after.at (outDir ++ [['a'], ['y']]) = some (.leaf .symlink linkId) ∧
    after.at (outDir ++ [['b'], ['c']]) = some (.leaf .executable otherId) ∧
    after.at (outDir ++ [['a'], ['d']]) = some .dir ∧ after.at [['h'], ['f']] = some (.leaf .file otherId) := by
  have h := C80_files store_ok cas_in (by simp) plan installed
  have hc := C80_content_partial store_ok cas_in (by simp) plan full home_empty installed
  have hl := hc.artifact ([['a']], treeOf tree) (by simp [artifacts]) [['y']]
  have hp := C80_confined store_ok cas_in (by simp) plan installed [['h'], ['f']]
  rw [resolved] at h hl hp
  refine ⟨h.1 _ _ _ ⟨([['a']], treeOf tree), by simp [artifacts], [['d'], ['p']], rfl, by decide +kernel⟩,
    hl.trans (by decide +kernel),
    h.1 _ _ _ ⟨([['b'], ['c']], ⟨.executable, otherId⟩), by simp [artifacts], [], rfl, rfl⟩,
    h.2.1 _ [['p']] .file someId (by decide) ⟨([['a']], treeOf tree), by simp [artifacts], [['d'], ['p']], rfl, by decide +kernel⟩,
    ?_⟩
  rcases hp with e | hp | hp
  · rw [e]
    decide
  · revert hp
    decide
  · revert hp
    decide

/-- Hypotheses of `C80_success` and `C80_again` are met. -/
example : (∃ N, ∀ n, N ≤ n → ∃ fs, install demoEnv cas none n [['h']] out (request artifacts) home = .ok (true, fs)) ∧
    ∃ N, ∀ n, N ≤ n → ∃ fs, install demoEnv cas none n [['h']] out (request artifacts) after = .ok (true, fs) ∧
      ∀ p, fs.at p = after.at p :=
  ⟨C80_success store_ok cas_in none plan present room,
   C80_again store_ok cas_in (by simp) plan present installed⟩

/-- If a tree is not in the local CAS, it is taken from git. -/
example : ∃ fs, install demoEnv { cas with trees := [] } (some cas) 5 [['h']] out (request artifacts) home = .ok (true, fs) ∧
    fs.at (outDir ++ [['a'], ['d'], ['p']]) = some (.leaf .file someId) ∧
    fs.at (outDir ++ [['b'], ['c']]) = some (.leaf .executable otherId) :=
  ⟨match install demoEnv { cas with trees := [] } (some cas) 5 [['h']] out (request artifacts) home with
    | .ok r => r.2
    | _ => [], by decide +kernel⟩

/-! ## Importing -/

/-- Hypotheses of `C80_import` are met. -/
example : ∃ N, ∀ n, N ≤ n → ∃ root made, importDir demoEnv.H home n [['h']] = some (root, made) ∧
    ∀ S, NoCollision demoEnv S → (∀ c ∈ made, c ∈ S) →
      (∀ q, look demoEnv S ⟨.tree, root⟩ q = home.at ([['h']] ++ q)) ∧ Canonical demoEnv S ⟨.tree, root⟩ := by
  refine C80_import demoEnv_ok home_wf (by decide) ⟨fun q o ho a ha => ?_, fun q ty id ho => ?_⟩
  · rcases home_at (by simp) ho with ⟨e, _⟩ | ⟨e, _⟩
    · cases e
      cases ha
    · cases e
      rw [List.mem_singleton.1 ha]
      exact name_of (by decide)
  · rcases home_at (by simp) ho with ⟨_, e⟩ | ⟨_, e⟩
    · cases e
    · cases e
      decide

theorem sorted_of {l : List Ent} (h : l.Pairwise fun a b => Tree.gitName a < Tree.gitName b) (h3 : listingOK l = true)
    (hm : treeText l ∈ store) (h5 : ∀ e ∈ l, Canonical demoEnv store ⟨e.type, e.id⟩) : Canonical demoEnv store (treeOf l) :=
  .tree (listingOK_spec h3).1 h hm h5

theorem canonical : ∀ x ∈ artifacts, Canonical demoEnv store x.2 := by
  have hs : Canonical demoEnv store (treeOf subA) := by
    refine sorted_of (by unfold subA; decide) (by decide +kernel) (by simp [store]) fun e he => .leaf (by
      revert e
      decide)
  intro x hx
  simp only [artifacts, List.mem_cons, List.not_mem_nil, or_false] at hx
  rcases hx with rfl | rfl
  · refine sorted_of (by unfold tree; decide +kernel) (by decide +kernel) (by simp [store]) fun e he => ?_
    simp only [tree, List.mem_cons, List.not_mem_nil, or_false] at he
    rcases he with rfl | rfl | rfl
    · exact hs
    · exact .leaf (by decide)
    · exact .leaf (by decide)
  · exact .leaf (by decide)

/-- Hypotheses of `C80_root_partial` are met. -/
example : ∃ N, ∀ n, N ≤ n → ∃ root made, importDir demoEnv.H after n (resolve [['h']] out) = some (root, made) ∧
    ((∀ c ∈ made, c ∈ store) → root = demoEnv.H rootText) :=
  C80_root_partial demoEnv_ok store_ok cas_in (by simp) plan full home_wf home_empty installed
    (stage := stage) (staged_of (by decide +kernel)) canonical (made := [rootText, bText]) (by decide +kernel)
    (by decide +kernel)

example : ∃ made, importDir demoEnv.H after 5 (resolve [['h']] out) = some (demoEnv.H rootText, made) ∧ ∀ c ∈ made, c ∈ store :=
  ⟨[rootText, bText, treeText tree, treeText subA], by decide +kernel⟩

/-! ## Violations -/

/-- A directory with a file and an empty directory. -/
def withEmpty : List Ent := [⟨['e'], .tree, demoEnv.H []⟩, ⟨['x'], .file, someId⟩]

def emptyCas : Cas := { cas with trees := [[], treeText withEmpty] }

/-- **C80, violated.** Empty directories in artifacts are not installed. -/
theorem C80_violation_empty : ∃ fs, install demoEnv emptyCas none 5 [['h']] out (request [([['a']], treeOf withEmpty)]) home =
      .ok (true, fs) ∧ look demoEnv emptyCas.trees (treeOf withEmpty) [['e']] = some .dir ∧
    fs.at (outDir ++ [['a'], ['x']]) = some (.leaf .file someId) ∧ fs.at (outDir ++ [['a'], ['e']]) = none :=
  ⟨match install demoEnv emptyCas none 5 [['h']] out (request [([['a']], treeOf withEmpty)]) home with
    | .ok r => r.2
    | _ => [], by decide +kernel⟩

def emptyStage : OMap Str (Option Info) := ⟨[(['a'], some (treeOf withEmpty))], by unfold Ascending; decide⟩

/-- **C80, violated.** With an empty directory in an artifact, building, installing, and importing gives another root than the
computation from the artifacts in the target cache. -/
theorem C80_violation_root : ∃ fs root made root' made',
    install demoEnv emptyCas none 5 [['h']] out (request [([['a']], treeOf withEmpty)]) home = .ok (true, fs) ∧
    importDir demoEnv.H fs 5 outDir = some (root, made) ∧ artifactsRoot demoEnv.H emptyStage = .ok (root', made') ∧
    NoCollision demoEnv (emptyCas.trees ++ made ++ made') ∧ root ≠ root' := by
  refine ⟨match install demoEnv emptyCas none 5 [['h']] out (request [([['a']], treeOf withEmpty)]) home with
    | .ok r => r.2
    | _ => [], demoEnv.H (treeText [⟨['a'], .tree, (treeOf [⟨['x'], .file, someId⟩]).id⟩]),
    [treeText [⟨['a'], .tree, (treeOf [⟨['x'], .file, someId⟩]).id⟩], treeText [⟨['x'], .file, someId⟩]],
    demoEnv.H (treeText [⟨['a'], .tree, (treeOf withEmpty).id⟩]), [treeText [⟨['a'], .tree, (treeOf withEmpty).id⟩]], ?_⟩
  unfold NoCollision
  decide +kernel

/-- A tree with an entry `..`, which is a directory. -/
def upwards : List Ent := [⟨['.', '.'], .tree, (treeOf subA).id⟩]
def upwards2 : List Ent := [⟨['.', '.'], .tree, (treeOf upwards).id⟩]

def upCas : Cas := { cas with trees := [treeText subA, treeText upwards, treeText upwards2] }

/-- **C80, violated.** Names of entries are not checked: installing a tree with an entry `..` writes files outside of the
output directory, replacing what is there. -/
theorem C80_violation_upwards : ∃ fs fs', fs.at [['h'], ['p']] = some (.leaf .file otherId) ∧
    install demoEnv upCas none 5 [] ['/', 'h', '/', 'o'] (request [([['a']], treeOf upwards2)]) fs = .ok (true, fs') ∧
    fs'.at [['h'], ['p']] = some (.leaf .file someId) :=
  ⟨[([['h']], .dir), ([['h'], ['p']], .leaf .file otherId)],
   match install demoEnv upCas none 5 [] ['/', 'h', '/', 'o'] (request [([['a']], treeOf upwards2)])
      [([['h']], .dir), ([['h'], ['p']], .leaf .file otherId)] with
    | .ok r => r.2
    | _ => [], by decide +kernel⟩

end Verif.Install.Example
