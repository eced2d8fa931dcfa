import Verif.InstallCas.Archive
import Verif.Tree.InstallExample

/-!
# `install-cas`: examples and violations (C110)
-/

namespace Verif.InstallCas.Example

open Verif.Dig (HashType ObjectType ObjectInfo)
open Verif.Expr (hexString)
open Verif.Install
open Verif.Install.Example
open Verif.Path
open Verif.Roots (Out)
open Verif.Roots.Example (name_of)
open Verif.Tree (Info Obs Env Store Ent Listing NoCollision look retrieve parseTree demoEnv treeOf treeText subA someId otherId)

/-! ## Object identifiers -/

def sha : Str := hexString someId

theorem sha_good : GoodHash .gitSHA1 sha := hexString_good (by decide)

def sha256 : Str := List.replicate 64 'e'

example : liberal .gitSHA1 (wrap false (sha ++ ':' :: decimal 12 ++ ':' :: 'x' :: "tra".toList)) =
    .ok (given .gitSHA1 sha 12 .executable) := C110_id sha_good (by decide) .executable "tra".toList false

example : liberal .gitSHA1 (wrap true (sha ++ ':' :: [] ++ ':' :: 't' :: [])) = .ok (given .gitSHA1 sha 0 .tree) :=
  (C110_defaults sha_good (size := 0) (by decide) true).2.2.1 .tree [] [] (by decide) (by intro c r h; cases h)

example : liberal .gitSHA1 (wrap true (sha ++ ':' :: decimal 7 ++ ':' :: "?".toList)) = .ok (given .gitSHA1 sha 7 .file) :=
  (C110_defaults sha_good (size := 7) (by decide) true).2.2.2 _ (by
    intro c r h
    cases h
    decide)

example : liberal .plainSHA256 sha256 = .ok (given .plainSHA256 sha256 0 .file) :=
  (C110_defaults (t := .plainSHA256) (h := sha256) ⟨by decide, by decide⟩ (size := 0) (by decide) true).1

example : liberal .gitSHA1 ((given .gitSHA1 sha 9 .tree).toString false) = .ok (given .gitSHA1 sha 9 .tree) :=
  (C110_printed (given .gitSHA1 sha 9 .tree) sha_good (by decide) rfl).1

example : GoodHash .gitSHA1 sha :=
  (C110_only (C110_id sha_good (size := 5) (by decide) .tree [] true)).1

/-- A hash of the wrong length is not accepted. -/
example : liberal .gitSHA1 sha256 = .error := by decide +kernel

example : liberal .gitSHA1 (wrap true sha) = .error := C110_bracket_violation sha_good

example : liberal .gitSHA1 (wrap true (sha ++ ':' :: decimal (2 ^ 63) ++ ':' :: ['f'])) = .ub :=
  C110_size_violation sha_good (by decide) true _

/-- `C110_invalid` applies. -/
example {n : Nat} {O : Outside} {w : World} : run demoEnv cas none O n [] { object := "main.c".toList } w = .ok (false, w) ∨
    run demoEnv cas none O n [] { object := "main.c".toList } w = .ub := by
  refine C110_invalid fun o hash rest h1 h2 h3 h4 => ?_
  have h5 : hash.length = 40 := h3.1
  have h6 : "main.c".toList.length = (o ++ hash ++ rest).length := congrArg List.length h4
  rw [List.length_append, List.length_append, h5] at h6
  have : "main.c".toList.length = 6 := by decide
  omega

/-- `C110_run_size_violation` applies. -/
example {n : Nat} {O : Outside} {w : World} :
    run demoEnv cas none O n [] { object := wrap true (sha ++ ':' :: decimal (2 ^ 63) ++ ':' :: ['f']) } w = .ub :=
  C110_run_size_violation sha_good (by decide) true _ rfl

/-! ## Objects -/

/-- The canonical identifier of an object. -/
def idOf (i : Info) : Str := wrap true (hexString i.id ++ ':' :: decimal 0 ++ ':' :: i.type.toChar :: [])

theorem refers {i : Info} (h1 : ∀ c ∈ i.id, c.toNat < 256) (h2 : i.id.length = 20) : Refers (idOf i) i :=
  ⟨⟨0, C110_id (hexString_good h2) (by decide) i.type [] true⟩, h1, h2⟩

theorem tree_refers : Refers (idOf (treeOf tree)) (treeOf tree) := refers (by decide +kernel) (by decide +kernel)

theorem dir_at : At demoEnv cas.trees (treeOf tree) [['d'], ['p']] ⟨.file, someId⟩ :=
  .down (d := treeText tree) (l := tree) (e := ⟨['d'], .tree, (treeOf subA).id⟩) (by decide +kernel) (by decide +kernel)
    (by simp [tree])
    (.down (d := treeText subA) (l := subA) (e := ⟨['p'], .file, someId⟩) (by decide +kernel) (by decide +kernel)
      (by simp [subA]) (.here _))

/-- Everything works. -/
def fine : Outside := ⟨fun _ => true, id⟩

def world : World := { fs := home }

def cwd : List Str := [['h']]

theorem out_named : Named out := ⟨out, by decide +kernel, (name_of (by decide)).proper⟩

theorem h_named : Named "/h".toList := ⟨['h'], by decide +kernel, (name_of (by decide)).proper⟩

theorem present_tree : Present demoEnv cas (treeOf tree) := present (([['a']], treeOf tree)) (by simp [artifacts])

/-- The part of the identifier. -/
example : select demoEnv cas { object := idOf (treeOf tree), sub := some "d/p".toList } (treeOf tree) =
    some ⟨.file, someId⟩ :=
  C110_sub_found (S := store) store_ok cas_in dir_at tree_clean rfl

example : Longest demoEnv store (treeOf tree) (elems "d/p".toList) ⟨.file, someId⟩ :=
  C110_sub_partial (a := { object := idOf (treeOf tree), sub := some "d/p".toList }) store_ok cas_in tree_clean rfl
    (C110_sub_found (S := store) store_ok cas_in dir_at tree_clean rfl)

/-! ## Installing -/

theorem target_out (j : Info) : target cwd out j home = outDir := by
  unfold target
  rw [show resolve cwd out = outDir from resolved, if_neg (by decide +kernel)]

theorem above_out (j : Info) (p : List Str) (hp : p <+: target cwd out j home) (ty : ObjectType) (id : Str) :
    home.at p ≠ some (.leaf ty id) := by
  intro e
  rw [target_out] at hp
  by_cases h0 : p = []
  · subst h0
    cases e
  · rcases home_at h0 e with ⟨_, e⟩ | ⟨rfl, _⟩
    · cases e
    · exact absurd hp (by decide +kernel)

theorem below_out (j : Info) (q : List Str) : home.at (target cwd out j home ++ q) = none := by
  rw [target_out]
  by_cases h0 : q = []
  · subst h0
    decide +kernel
  · have := home_empty q h0
    rwa [resolved] at this

/-- Installing a tree to a path where nothing is. -/
example : ∃ N, ∀ n, N ≤ n → ∃ w', run demoEnv cas none fine n cwd { object := idOf (treeOf tree), output := some out } world =
    .ok (true, w') :=
  C110_success (S := store) store_ok cas_in tree_refers tree_clean (.inl ⟨rfl, rfl⟩) present_tree rfl out_named
    (fun p hp _ => above_out _ p hp)
    ⟨fun q _ _ _ _ _ _ _ e => (nomatch (below_out (treeOf tree) q).symm.trans e),
     fun q _ _ _ e => (nomatch (below_out (treeOf tree) q).symm.trans e)⟩

/-- Writing an archive of a subdirectory. -/
example : ∃ N, ∀ n, N ≤ n → ∃ w', run demoEnv cas none fine n cwd
    { object := idOf (treeOf tree), sub := some ['d'], output := some out, archive := true } world = .ok (true, w') :=
  C110_success (S := store) (j := treeOf subA) store_ok cas_in tree_refers tree_clean
    (.inr ⟨[['d']], rfl, .down (d := treeText tree) (l := tree) (e := ⟨['d'], .tree, (treeOf subA).id⟩) (by decide +kernel)
      (by decide +kernel) (by simp [tree]) (.here _)⟩)
    (by
      refine .tree (d := treeText subA) (l := subA) (by decide +kernel) (by decide +kernel) (by decide) fun e he => ?_
      refine .blob (c := ['z']) ?_ ?_ ?_
      all_goals revert e; decide) rfl out_named
    (fun p hp _ => above_out _ p hp) ⟨rfl, fun e => by
      have := below_out (treeOf subA) []
      rw [List.append_nil] at this
      exact (nomatch this.symm.trans e)⟩

/-- The archive of a tree. -/
theorem archived : addToArchive demoEnv cas 5 (treeOf tree) [] = (true,
    [⟨['d'], .dir⟩, ⟨"d/p".toList, .regular 0o444 ['z']⟩, ⟨"d/q".toList, .regular 0o444 ['z']⟩, ⟨['x'], .regular 0o444 ['z']⟩,
      ⟨['y'], .link "d/p".toList⟩]) := by decide +kernel

/-- An archive on stdout. -/
theorem run_archive (O : Outside) : run demoEnv cas none O 5 cwd { object := idOf (treeOf tree), archive := true } world =
    .ok (true, { world with archives := [(none, O.writes (addToArchive demoEnv cas 5 (treeOf tree) []).2)] }) := by
  obtain ⟨ob, h1, h2⟩ := tree_refers.object
  unfold run
  dsimp only
  rw [h1]
  dsimp only
  rw [h2]
  show Out.ok (generateArchive demoEnv cas O 5 cwd (treeOf tree) none world) = _
  unfold generateArchive
  rw [if_neg (by simp), archived]
  rfl

example : ∃ w' ks, run demoEnv cas none fine 5 cwd { object := idOf (treeOf tree), archive := true } world = .ok (true, w') ∧
    w'.archives = world.archives ++ [(none, toMembers ks)] ∧ ([['d'], ['p']], .regular 0o444 ['z']) ∈ ks := by
  obtain ⟨j, ks, h1, _, h2, h3, _⟩ := C110_archive_partial (S := store) (git := none) store_ok cas_in (O := fine)
    (fun _ => rfl) tree_refers tree_clean rfl (by simp) (run_archive fine)
  cases h1
  exact ⟨_, ks, run_archive fine, h2, (h3 _ _).2 ⟨by simp, .leaf .file someId, by decide +kernel, 'z' :: [], by decide +kernel, rfl⟩⟩

/-- A file is no tree. -/
example : ∃ w', run demoEnv cas none fine 5 cwd { object := idOf (treeOf tree), sub := some "d/p".toList, archive := true } world =
    .ok (false, w') ∧ w'.archives = [] ∧ w'.shown = [] :=
  C110_archive_needs_tree (S := store) (j := ⟨.file, someId⟩) store_ok cas_in tree_refers tree_clean rfl
    (.inr ⟨[['d'], ['p']], rfl, dir_at⟩) (by decide) world

example : ∃ b w', run demoEnv cas none fine 5 cwd { object := idOf (treeOf tree), sub := some "d/p".toList } world = .ok (b, w') ∧
    w'.shown = [] ++ if b then [⟨.file, someId⟩] else [] := by
  obtain ⟨b, w', h1, _, _, _, h2⟩ := C110_shown (S := store) (git := none) (O := fine) (n := 5) (cwd := cwd)
    (a := { object := idOf (treeOf tree), sub := some "d/p".toList }) (j := ⟨.file, someId⟩) store_ok cas_in tree_refers
    tree_clean rfl (.inr ⟨[['d'], ['p']], rfl, dir_at⟩) rfl world
  exact ⟨b, w', h1, h2⟩

/-- What is checked of a run. -/
def check (r : Out (Bool × World)) (f : Bool → World → Bool) : Bool :=
  match r with
  | .ok (b, w) => f b w
  | _ => false

theorem of_check {r : Out (Bool × World)} {f : Bool → World → Bool} (h : check r f = true) :
    ∃ b w, r = .ok (b, w) ∧ f b w = true := by
  cases r with
  | ok x => exact ⟨x.1, x.2, rfl, h⟩
  | error => cases h
  | ub => cases h

/-- Installing to a directory: the hash is the name. -/
theorem run_dir : ∃ w', run demoEnv cas none fine 5 cwd { object := idOf (treeOf tree), output := some "/h".toList } world =
    .ok (true, w') ∧ w'.fs.at [['h'], hexString (treeOf tree).id, ['d'], ['p']] = some (.leaf .file someId) := by
  obtain ⟨b, w', h, hf⟩ := of_check (r := run demoEnv cas none fine 5 cwd { object := idOf (treeOf tree), output := some "/h".toList }
    world) (f := fun b w => b && decide (w.fs.at [['h'], hexString (treeOf tree).id, ['d'], ['p']] = some (.leaf .file someId)))
    (by decide +kernel)
  rw [Bool.and_eq_true, decide_eq_true_eq] at hf
  exact ⟨w', by rw [h, hf.1], hf.2⟩

example : ∃ w' : World, w'.fs.at (target cwd "/h".toList (treeOf tree) home ++ [['d'], ['q']]) = some (.leaf .file someId) := by
  obtain ⟨w', h, _⟩ := run_dir
  obtain ⟨_, _, j, h1, h2, _⟩ := C110_installed_partial (S := store) store_ok cas_in (by simp) tree_refers tree_clean rfl rfl h_named h
  cases h1
  exact ⟨w', h2 [['d'], ['q']] _ _ (by decide +kernel)⟩

example : ∃ w' : World, ∀ p, w'.fs.at p = home.at p ∨ target cwd "/h".toList (treeOf tree) home <+: p ∨
    p <+: target cwd "/h".toList (treeOf tree) home ∧ home.at p = none ∧ w'.fs.at p = some .dir := by
  obtain ⟨w', h, _⟩ := run_dir
  rcases C110_confined (S := store) store_ok cas_in (by simp) tree_refers tree_clean rfl rfl h_named h with ⟨h, _⟩ | ⟨j, h1, h2⟩
  · cases h
  · cases h1
    exact ⟨w', h2⟩

theorem f_named : Named ['f'] := ⟨['f'], by decide +kernel, (name_of (by decide)).proper⟩

/-- Installing a tree over a file. -/
example : ∃ w', run demoEnv cas none fine 5 cwd { object := idOf (treeOf tree), output := some ['f'] } world = .ok (false, w') ∧
    w'.fs.at [['h'], ['f']] = some (.leaf .file otherId) := by
  obtain ⟨b, w', h, _⟩ := of_check (r := run demoEnv cas none fine 5 cwd { object := idOf (treeOf tree), output := some ['f'] }
    world) (f := fun _ _ => true) (by decide +kernel)
  have := C110_tree_over_file (S := store) (q := [['x']]) (ty := .file) (id := otherId) (ty' := .file) (id' := someId)
    store_ok cas_in (by simp) tree_refers tree_clean rfl rfl rfl f_named (by decide +kernel) (by simp) (by decide +kernel) h
  exact ⟨w', by rw [h, this.1], this.2⟩

example : ∃ w', run demoEnv cas none fine 5 cwd { object := idOf (treeOf tree), remember := true } world = .ok (true, w') ∧
    w'.kept = [treeOf tree] := by
  obtain ⟨b, w', h, hb⟩ := of_check (r := run demoEnv cas none fine 5 cwd { object := idOf (treeOf tree), remember := true }
    world) (f := fun b _ => b) (by decide +kernel)
  cases b with
  | false => cases hb
  | true => exact ⟨w', h, C110_remember_partial tree_refers rfl rfl h⟩

/-! ## Violations -/

/-- **C110 violated.** If there is nothing at the path given inside the tree, another object is installed, with success. -/
theorem C110_sub_violation : ∃ (a : Args) (o : Str) (w' : World), Refers a.object (treeOf tree) ∧ a.output = some o ∧
    a.sub = some ['q'] ∧ (∀ j, ¬ At demoEnv store (treeOf tree) [['q']] j) ∧
    run demoEnv cas none fine 5 cwd a world = .ok (true, w') ∧
    w'.fs.at (resolve cwd o ++ [['x']]) = some (.leaf .file someId) := by
  obtain ⟨b, w', h, hf⟩ := of_check (r := run demoEnv cas none fine 5 cwd
    { object := idOf (treeOf tree), sub := some ['q'], output := some out } world)
    (f := fun b w => b && decide (w.fs.at (resolve cwd out ++ [['x']]) = some (.leaf .file someId))) (by decide +kernel)
  rw [Bool.and_eq_true, decide_eq_true_eq] at hf
  refine ⟨_, out, w', tree_refers, rfl, rfl, fun j hj => ?_, by rw [h, hf.1], hf.2⟩
  generalize hi : treeOf tree = i at hj
  generalize hq : [['q']] = p at hj
  cases hj with
  | here => cases hq
  | @down id d l e p j hr hp he _ =>
    cases hi
    cases (show treeText tree = d from Option.some.inj ((by decide +kernel : retrieve demoEnv store (treeOf tree).id =
      some (treeText tree)).symm.trans hr))
    cases (by decide +kernel : parseTree (treeText tree) = some tree).symm.trans hp
    have hn : e.name = ['q'] := (List.cons.inj hq).1.symm
    simp only [tree, List.mem_cons, List.not_mem_nil, or_false] at he
    rcases he with rfl | rfl | rfl <;> cases hn

/-- **C110 violated.** With `--remember`, success does not mean that the object is in the local CAS. -/
theorem C110_remember_violation : ∃ (O : Outside) (a : Args) (w' : World), Refers a.object (treeOf tree) ∧
    a.remember = true ∧ run demoEnv cas none O 5 cwd a world = .ok (true, w') ∧ w'.kept = [] := by
  obtain ⟨b, w', h, hf⟩ := of_check (r := run demoEnv cas none ⟨fun _ => false, id⟩ 5 cwd
    { object := idOf (treeOf tree), remember := true, output := some out } world)
    (f := fun b w => b && decide (w.kept = [])) (by decide +kernel)
  rw [Bool.and_eq_true, decide_eq_true_eq] at hf
  exact ⟨_, _, w', tree_refers, rfl, by rw [h, hf.1], hf.2⟩

/-- **C110 violated.** Errors on writing an archive are ignored: there is success, although only a part has been written. -/
theorem C110_archive_violation : ∃ (O : Outside) (a : Args) (w' : World), Refers a.object (treeOf tree) ∧ a.archive = true ∧
    run demoEnv cas none O 5 cwd a world = .ok (true, w') ∧ w'.archives = [(none, [⟨['d'], .dir⟩])] ∧
    look demoEnv store (treeOf tree) [['x']] = some (.leaf .file someId) :=
  ⟨⟨fun _ => true, fun l => l.take 1⟩, { object := idOf (treeOf tree), archive := true }, _, tree_refers, rfl,
    run_archive _, by rw [archived]; rfl, by decide +kernel⟩

/-- A CAS in which a file is missing. -/
def poor : Cas := { cas with blob := fun i => if i = linkId then none else cas.blob i }

/-- **C110 violated.** If an archive cannot be written as something is missing in the CAS, a part of it is left at the output
path. -/
theorem C110_archive_left_violation : ∃ (a : Args) (o : Str) (w' : World), Refers a.object (treeOf tree) ∧ a.archive = true ∧
    a.output = some o ∧ run demoEnv poor none fine 5 cwd a world = .ok (false, w') ∧
    ∃ m l, w'.archives = [(some (resolve cwd o), m :: l)] := by
  obtain ⟨b, w', h, hf⟩ := of_check (r := run demoEnv poor none fine 5 cwd
    { object := idOf (treeOf tree), output := some out, archive := true } world)
    (f := fun b w => !b && decide (w.archives = [(some (resolve cwd out), [⟨['d'], .dir⟩,
      ⟨"d/p".toList, .regular 0o444 ['z']⟩, ⟨"d/q".toList, .regular 0o444 ['z']⟩, ⟨['x'], .regular 0o444 ['z']⟩])]))
    (by decide +kernel)
  rw [Bool.and_eq_true, decide_eq_true_eq, Bool.not_eq_true'] at hf
  exact ⟨_, out, w', tree_refers, rfl, rfl, by rw [h, hf.1], _, _, hf.2⟩

/-- A CAS with the empty tree. -/
def bare : Cas := ⟨[[]], fun _ => none, id⟩

theorem empty_refers : Refers (idOf (treeOf [])) (treeOf []) := refers (by decide +kernel) (by decide +kernel)

/-- **C110 violated.** Installing the empty tree succeeds without a directory being created, and also if the output path is
that of an existing file. -/
theorem C110_empty_violation : look demoEnv bare.trees (treeOf []) [] = some .dir ∧
    (∃ (a : Args) (w' : World), Refers a.object (treeOf []) ∧ a.output = some out ∧
      run demoEnv bare none fine 5 cwd a world = .ok (true, w') ∧ w'.fs.at (resolve cwd out) = none) ∧
    ∃ (a : Args) (w' : World), Refers a.object (treeOf []) ∧ a.output = some ['f'] ∧
      run demoEnv bare none fine 5 cwd a world = .ok (true, w') ∧
      w'.fs.at (resolve cwd ['f']) = some (.leaf .file otherId) := by
  refine ⟨by decide +kernel, ?_, ?_⟩
  · obtain ⟨b, w', h, hf⟩ := of_check (r := run demoEnv bare none fine 5 cwd
      { object := idOf (treeOf []), output := some out } world)
      (f := fun b w => b && decide (w.fs.at (resolve cwd out) = none)) (by decide +kernel)
    rw [Bool.and_eq_true, decide_eq_true_eq] at hf
    exact ⟨_, w', empty_refers, rfl, by rw [h, hf.1], hf.2⟩
  · obtain ⟨b, w', h, hf⟩ := of_check (r := run demoEnv bare none fine 5 cwd
      { object := idOf (treeOf []), output := some ['f'] } world)
      (f := fun b w => b && decide (w.fs.at (resolve cwd ['f']) = some (.leaf .file otherId))) (by decide +kernel)
    rw [Bool.and_eq_true, decide_eq_true_eq] at hf
    exact ⟨_, w', empty_refers, rfl, by rw [h, hf.1], hf.2⟩

end Verif.InstallCas.Example
