import Verif.MrFetch.Malformed

/-!
# C115: examples, and violations
-/

namespace Verif.MrFetch.Example

open Verif Verif.MrConfig Verif.Path Verif.MrFetch

def h1 : Str := List.replicate 40 'a'

def h2 : Str := List.replicate 40 'b'

/-- The description of an archive. -/
def arch (h : Str) (u : Str) (more : List (Str × Json Nat)) : List (Str × Json Nat) :=
  [("type".toList, .str "archive".toList), ("content".toList, .str h), ("fetch".toList, .str u)] ++ more

def local_ : List (Str × Json Nat) := [("type".toList, .str "file".toList), ("path".toList, .str ".".toList)]

/-- A repository with nothing but a description. -/
def repo (r : List (Str × Json Nat)) : Json Nat := .obj [("repository".toList, .obj r)]

def config (repos : List (Str × Json Nat)) : List (Str × Json Nat) := [("repositories".toList, .obj repos)]

def env : Env Nat where
  isDir d := d = "/d".toList
  obtain _ := true
  obtainTree _ := true
  canWrite _ := true
  order l := l

def args (all : Bool) : Args := ⟨none, all, false, none, ["/n".toList, "/d".toList]⟩

def none' : Place → Option Str := fun _ => none

/-- The file at a place after fetching; nothing for failure. -/
def look (o : Out (Place → Option Str)) (p : String) : Option (Option Str) :=
  match o with
  | .ok f => some (f (place p.toList))
  | _ => none

theorem look_ok {o : Out (Place → Option Str)} {p : String} {x : Option Str} (h : look o p = some x) :
    ∃ f, o = .ok f ∧ f (place p.toList) = x := by
  cases o with
  | ok f => exact ⟨f, rfl, Option.some.inj h⟩
  | _ => cases h

theorem dir (all : Bool) : Dir env (args all) "/d".toList :=
  .inr ⟨rfl, ["/n".toList], [], rfl, rfl, fun d hd => by rw [List.mem_singleton.mp hd]; rfl⟩

/-- Two archives, one of them with an own file name, an absent one, and a directory. -/
def repos : List (Str × Json Nat) :=
  [("a".toList, repo (arch h1 "http://x/a.tar".toList [])),
   ("b".toList, repo (arch h2 "http://y/v1".toList [("distfile".toList, .str "b.tgz".toList)])),
   ("c".toList, repo (arch h2 "http://z/c.tar".toList [("pragma".toList, .obj [("absent".toList, .bool true)])])),
   ("d".toList, .obj [("repository".toList, .obj local_), ("bindings".toList, .obj [("x".toList, .str "b".toList)])])]

/-- With `--all`. -/
theorem fetched_all : look (fetch env (args true) (config repos) none') "/d/a.tar" = some (some h1) ∧
    look (fetch env (args true) (config repos) none') "/d/b.tgz" = some (some h2) ∧
    look (fetch env (args true) (config repos) none') "/d/c.tar" = some none := by decide +kernel

/-- For the main repository `d`, it is `b` only. -/
example : look (fetch env { args false with main := some "d".toList } (config repos) none') "/d/b.tgz" = some (some h2) ∧
    look (fetch env { args false with main := some "d".toList } (config repos) none') "/d/a.tar" = some none := by decide +kernel

/-- Without any main repository, it is the first one. -/
example : look (fetch env (args false) (config repos) none') "/d/a.tar" = some (some h1) ∧
    look (fetch env (args false) (config repos) none') "/d/b.tgz" = some none := by decide +kernel

/-- An archive that can not be obtained. -/
example : look (fetch { env with obtain := fun a => a.content = h2 } (args true) (config repos) none') "/d/a.tar" = none := by
  decide +kernel

/-- No directory. -/
example : fetch { env with isDir := fun _ => false } (args true) (config repos) none' = .fail :=
  C115_no_directory (fun dir => by
    rintro (h | ⟨-, f, b, -, h, -⟩)
    · exact nomatch h
    · exact nomatch h) _ _

theorem h12 : h1 ≠ h2 := by decide

/-- What is asked for here. -/
theorem wants_all (h : Str) (p : Place) : Wants (args true) (config repos) "/d".toList h p ↔
    h = h1 ∧ p = place "/d/a.tar".toList ∨ h = h2 ∧ p = place "/d/b.tgz".toList := by
  have he : collect (itemOf (args true).fetchAbsent repos) (repos.map Prod.fst) = some
      [("a".toList, .archive ⟨h1, none, "http://x/a.tar".toList, []⟩),
       ("b".toList, .archive ⟨h2, some "b.tgz".toList, "http://y/v1".toList, []⟩),
       ("c".toList, .nothing), ("d".toList, .nothing)] := by rfl
  rw [wants_archives (.inl rfl) (repos := repos) rfl (names := repos.map Prod.fst) rfl he]
  have ha : archives (([("a".toList, .archive ⟨h1, none, "http://x/a.tar".toList, []⟩),
       ("b".toList, .archive ⟨h2, some "b.tgz".toList, "http://y/v1".toList, []⟩),
       ("c".toList, .nothing), ("d".toList, .nothing)] : List (Str × Item Nat)).map Prod.snd) =
      [⟨h1, none, "http://x/a.tar".toList, []⟩, ⟨h2, some "b.tgz".toList, "http://y/v1".toList, []⟩] := rfl
  rw [ha]
  have t1 : target "/d".toList ⟨h1, none, "http://x/a.tar".toList, []⟩ = place "/d/a.tar".toList := by decide +kernel
  have t2 : target "/d".toList ⟨h2, some "b.tgz".toList, "http://y/v1".toList, []⟩ = place "/d/b.tgz".toList := by decide +kernel
  constructor
  · rintro ⟨a, ha, rfl, rfl⟩
    rcases List.mem_cons.mp ha with rfl | ha
    · exact .inl ⟨rfl, t1⟩
    · rw [List.mem_singleton.mp ha]
      exact .inr ⟨rfl, t2⟩
  · rintro (⟨rfl, rfl⟩ | ⟨rfl, rfl⟩)
    · exact ⟨_, List.mem_cons_self, rfl, t1⟩
    · exact ⟨_, List.mem_cons_of_mem _ List.mem_cons_self, rfl, t2⟩

/-- The hypotheses of C115_files_partial are met. -/
example : ∃ out, fetch env (args true) (config repos) none' = .ok out ∧
    ∀ h p, Wants (args true) (config repos) "/d".toList h p → out p = some h := by
  obtain ⟨out, h, -⟩ := look_ok fetched_all.1
  have hp : place "/d/a.tar".toList ≠ place "/d/b.tgz".toList := by decide +kernel
  refine ⟨out, h, fun hash p hw => C115_files_partial (fun l => List.Perm.refl l) (dir true) (.inl rfl) ?_ h hw⟩
  intro a p b q h h'
  rw [wants_all] at h h'
  rcases h with ⟨rfl, rfl⟩ | ⟨rfl, rfl⟩ <;> rcases h' with ⟨rfl, rfl⟩ | ⟨rfl, rfl⟩
  · exact ⟨fun _ => rfl, fun _ => rfl⟩
  · exact ⟨fun e => absurd e h12, fun e => absurd e hp⟩
  · exact ⟨fun e => absurd e.symm h12, fun e => absurd e.symm hp⟩
  · exact ⟨fun _ => rfl, fun _ => rfl⟩

/-- A tree. -/
def treeRepos : List (Str × Json Nat) :=
  [("t".toList, repo [("type".toList, .str "git tree".toList), ("id".toList, .str h1), ("cmd".toList, .arr [.str "x".toList])])]

example : look (fetch env (args true) (config treeRepos) none') "/d/t" = some none ∧
    look (fetch { env with obtainTree := fun _ => false } (args true) (config treeRepos) none') "/d/t" = none := by decide +kernel

/-- The hypotheses of C115_succeeds are met by an archive and a directory. -/
example (files : Place → Option Str) : ∃ out, fetch env (args true)
    (config [("a".toList, repo (arch h1 "http://x/a.tar".toList [])), ("d".toList, repo local_)]) files = .ok out := by
  refine C115_succeeds (fun l => List.Perm.refl l) (dir true) rfl rfl ?_ (fun _ _ => rfl) (fun _ => rfl) files
  intro n hn
  rcases List.mem_cons.mp hn with rfl | hn
  · refine ⟨arch h1 "http://x/a.tar".toList [], .here (l := [("repository".toList, .obj _)]) rfl rfl (fun _ => nofun), .inr (.inr (.inr ⟨.inl rfl, rfl, rfl, h1, _, rfl, rfl, ?_, rfl⟩))⟩
    intro c hc
    rw [List.eq_of_mem_replicate hc]; rfl
  · rw [List.mem_singleton.mp hn]
    exact ⟨local_, .here (l := [("repository".toList, .obj _)]) rfl rfl (fun _ => nofun), .inr (.inl rfl)⟩

/-- The descriptions of the first example can be used, and the content was obtained from where they say. -/
example : ∃ r, Described (config repos) "b".toList r ∧ Usable (args true).fetchAbsent r ∧
    ∃ a n r', env.obtain a = true ∧ Considered (args true) (config repos) n ∧ Described (config repos) n r' ∧
      field "content".toList r' = .str h2 ∧ a.content = h2 ∧ field "fetch".toList r' = .str a.url ∧ MirrorsOf r' a.mirrors := by
  obtain ⟨out, h, -⟩ := look_ok fetched_all.1
  have hd : Described (config repos) "b".toList (arch h2 "http://y/v1".toList [("distfile".toList, .str "b.tgz".toList)]) :=
    ⟨repos, rfl, .here (l := [("repository".toList, .obj _)]) rfl rfl (fun _ => nofun)⟩
  exact ⟨_, hd, C115_usable_partial (dir true) (.inl rfl) h ⟨repos, rfl, .inl ⟨rfl, by simp [repos]⟩⟩ hd,
    C115_source_partial (fun l => List.Perm.refl l) (dir true) (.inl rfl) h ((wants_all _ _).mpr (.inr ⟨rfl, rfl⟩))⟩

/-- Descriptions that can not be used. -/
example : look (fetch env (args true) (config [("a".toList, repo (arch "abc".toList "http://x/a.tar".toList []))]) none') "/d/a.tar" = none ∧
    look (fetch env (args true) (config [("a".toList, repo (arch h1 "http://x/a.tar".toList [("mirrors".toList, .arr [.num 1])]))]) none')
      "/d/a.tar" = none ∧
    look (fetch env (args true) (config [("a".toList, repo [("type".toList, .str "arch".toList)])]) none') "/d/a.tar" = none := by
  decide +kernel

/-! ## Violations -/

/-- **C115, violation.** The main repository given in the configuration is not taken into account: the archive it consists of is not
fetched. -/
theorem C115_violation_main : ∃ (cfg : List (Str × Json Nat)) (out : Place → Option Str) (h : Str) (p : Place),
    Dir env (args false) "/d".toList ∧ field "main".toList cfg = .str "b".toList ∧
    Wants (args false) cfg "/d".toList h p ∧ fetch env (args false) cfg none' = .ok out ∧ out p = none := by
  let rs : List (Str × Json Nat) := [("a".toList, repo local_), ("b".toList, repo (arch h1 "http://x/b.tar".toList []))]
  let cfg : List (Str × Json Nat) := [("main".toList, .str "b".toList), ("repositories".toList, .obj rs)]
  have h : look (fetch env (args false) cfg none') "/d/b.tar" = some none := by decide +kernel
  obtain ⟨out, e1, e2⟩ := look_ok h
  refine ⟨cfg, out, h1, place "/d/b.tar".toList, dir false, rfl, ?_, e1, e2⟩
  refine ⟨"b".toList, arch h1 "http://x/b.tar".toList [], "http://x/b.tar".toList, "b.tar".toList, ⟨rs, rfl, .inr ⟨rfl, "b".toList, .inr (.inl ⟨rfl, rfl⟩), .main⟩⟩,
    ⟨rs, rfl, .here (l := [("repository".toList, .obj _)]) rfl rfl (fun _ => nofun)⟩, .inl rfl, .inr ?_, rfl, rfl, .inr ⟨fun _ => nofun, by decide⟩, by decide +kernel⟩
  rintro ⟨p, hp, -⟩
  exact nomatch hp

/-- **C115, violation.** Archives that are used as target, rule, or expression root only are not fetched, though they are needed to set
up the repository. -/
theorem C115_violation_layer : ∃ (rs : List (Str × Json Nat)) (inv : Involved) (out : Place → Option Str),
    reachable rs "a".toList = .ok inv ∧ "b".toList ∈ inv.toSetup ∧
    Describes rs "b".toList (.obj (arch h1 "http://x/b.tar".toList [])) ∧
    fetch env { args false with main := some "a".toList } (config rs) none' = .ok out ∧ out (place "/d/b.tar".toList) = none := by
  let rs : List (Str × Json Nat) := [("a".toList, .obj [("repository".toList, .obj local_), ("target_root".toList, .str "b".toList)]),
    ("b".toList, repo (arch h1 "http://x/b.tar".toList []))]
  have h : look (fetch env { args false with main := some "a".toList } (config rs) none') "/d/b.tar" = some none := by decide +kernel
  obtain ⟨out, e1, e2⟩ := look_ok h
  have hset : (match reachable rs "a".toList with | .ok inv => some inv.toSetup | _ => none) = some ["b".toList, "a".toList] := by
    decide +kernel
  cases hr : reachable rs "a".toList with
  | ok inv =>
    rw [hr] at hset
    exact ⟨rs, inv, out, hr, by rw [Option.some.inj hset]; simp, .here (l := [("repository".toList, .obj _)]) rfl rfl (fun _ => nofun), e1, e2⟩
  | fail => rw [hr] at hset; cases hset
  | hang => rw [hr] at hset; cases hset

/-- **C115, violation.** Two archives with the same file name: fetching succeeds, but one of them is not there. -/
theorem C115_violation_clash : ∃ (rs : List (Str × Json Nat)) (out : Place → Option Str),
    (∀ h, h = h1 ∨ h = h2 → Wants (args true) (config rs) "/d".toList h (place "/d/v1.tar".toList)) ∧ h1 ≠ h2 ∧
    fetch env (args true) (config rs) none' = .ok out ∧ out (place "/d/v1.tar".toList) = some h2 := by
  let rs : List (Str × Json Nat) := [("a".toList, repo (arch h1 "http://x/v1.tar".toList [])), ("b".toList, repo (arch h2 "http://y/v1.tar".toList []))]
  have h : look (fetch env (args true) (config rs) none') "/d/v1.tar" = some (some h2) := by decide +kernel
  obtain ⟨out, e1, e2⟩ := look_ok h
  refine ⟨rs, out, ?_, h12, e1, e2⟩
  rintro h (rfl | rfl)
  · refine ⟨"a".toList, arch h1 "http://x/v1.tar".toList [], "http://x/v1.tar".toList, "v1.tar".toList, ⟨rs, rfl, .inl ⟨rfl, by simp [rs]⟩⟩,
      ⟨rs, rfl, .here (l := [("repository".toList, .obj _)]) rfl rfl (fun _ => nofun)⟩, .inl rfl, .inr ?_, rfl, rfl, .inr ⟨fun _ => nofun, by decide⟩, by decide +kernel⟩
    rintro ⟨p, hp, -⟩; exact nomatch hp
  · refine ⟨"b".toList, arch h2 "http://y/v1.tar".toList [], "http://y/v1.tar".toList, "v1.tar".toList, ⟨rs, rfl, .inl ⟨rfl, by simp [rs]⟩⟩,
      ⟨rs, rfl, .here (l := [("repository".toList, .obj _)]) rfl rfl (fun _ => nofun)⟩, .inl rfl, .inr ?_, rfl, rfl, .inr ⟨fun _ => nofun, by decide⟩, by decide +kernel⟩
    rintro ⟨p, hp, -⟩; exact nomatch hp

/-- **C115, violation.** The same content under two file names: only one of the files is written. -/
theorem C115_violation_twin : ∃ (rs : List (Str × Json Nat)) (out : Place → Option Str),
    Wants (args true) (config rs) "/d".toList h1 (place "/d/a.tar".toList) ∧ Wants (args true) (config rs) "/d".toList h1 (place "/d/b.tar".toList) ∧
    fetch env (args true) (config rs) none' = .ok out ∧ out (place "/d/b.tar".toList) = none := by
  let rs : List (Str × Json Nat) := [("a".toList, repo (arch h1 "http://x/a.tar".toList [])), ("b".toList, repo (arch h1 "http://y/b.tar".toList []))]
  have h : look (fetch env (args true) (config rs) none') "/d/b.tar" = some none := by decide +kernel
  obtain ⟨out, e1, e2⟩ := look_ok h
  refine ⟨rs, out, ?_, ?_, e1, e2⟩
  · refine ⟨"a".toList, arch h1 "http://x/a.tar".toList [], "http://x/a.tar".toList, "a.tar".toList, ⟨rs, rfl, .inl ⟨rfl, by simp [rs]⟩⟩,
      ⟨rs, rfl, .here (l := [("repository".toList, .obj _)]) rfl rfl (fun _ => nofun)⟩, .inl rfl, .inr ?_, rfl, rfl, .inr ⟨fun _ => nofun, by decide⟩, by decide +kernel⟩
    rintro ⟨p, hp, -⟩; exact nomatch hp
  · refine ⟨"b".toList, arch h1 "http://y/b.tar".toList [], "http://y/b.tar".toList, "b.tar".toList, ⟨rs, rfl, .inl ⟨rfl, by simp [rs]⟩⟩,
      ⟨rs, rfl, .here (l := [("repository".toList, .obj _)]) rfl rfl (fun _ => nofun)⟩, .inl rfl, .inr ?_, rfl, rfl, .inr ⟨fun _ => nofun, by decide⟩, by decide +kernel⟩
    rintro ⟨p, hp, -⟩; exact nomatch hp

/-- **C115, violation.** A file name in the configuration can lead out of the directory: a file elsewhere is replaced. -/
theorem C115_violation_outside : ∃ (rs : List (Str × Json Nat)) (files out : Place → Option Str),
    files (place "/home/u/file".toList) = some h2 ∧ fetch env (args true) (config rs) files = .ok out ∧
    out (place "/home/u/file".toList) = some h1 := by
  let rs : List (Str × Json Nat) := [("a".toList, repo (arch h1 "http://x/a.tar".toList [("distfile".toList, .str "../home/u/file".toList)]))]
  have h : look (fetch env (args true) (config rs) (fun _ => some h2)) "/home/u/file" = some (some h1) := by decide +kernel
  obtain ⟨out, e1, e2⟩ := look_ok h
  exact ⟨rs, fun _ => some h2, out, rfl, e1, e2⟩

/-- **C115, violation.** A serve endpoint that can not be asked for its mode is to be ignored, but the answer that is not there is read
nevertheless. -/
theorem C115_violation_serve (compatible : Bool) : serveCheck none compatible = .ub := rfl

end Verif.MrFetch.Example
