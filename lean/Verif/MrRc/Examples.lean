import Verif.MrRc.Locations

/-!
# Examples and violations for the rc files of just-mr (C98)

* `C98_violation_root` (V81): a location with an unknown root is accepted, relative to the working directory.
* `C98_violation_distdir` (V82): a distdir given on the command line is not looked at first.
* `C98_violation_masked` (V83): a malformed value is an error, but not if some file is overlaid.
-/

namespace Verif.MrRc

open Verif

namespace Example

/-- A location. -/
def loc (root path : String) : Json Nat :=
  .obj [("path".toList, .str path.toList), ("root".toList, .str root.toList)]

/-- An object. -/
def object (l : List (String × Json Nat)) : Json Nat := .obj (l.map fun p => (p.1.toList, p.2))

/-- The user's rc file. -/
def user : Json Nat := object
  [("distdirs", .arr [loc "home" "d", loc "home" "missing"]),
   ("git", loc "system" "bin/git"),
   ("just args", object [("build", .arr [.str "-J".toList, .str "8".toList])]),
   ("invocation log", object [("directory", loc "home" "log"), ("--profile", .str "profile.json".toList)]),
   ("log files", .arr [loc "workspace" "log"]),
   ("rc files", .arr [loc "workspace" "rc", loc "workspace" "none"]),
   ("remote execution", object [("address", .str "user".toList)])]

/-- The rc file of the workspace. -/
def project : Json Nat := object
  [("distdirs", .arr [loc "workspace" "d"]),
   ("just args", object [("install", .arr [.str "--remember".toList])]),
   ("invocation log", object [("project id", .str "p".toList)]),
   ("remote execution", object [("address", .str "project".toList)])]

/-- A machine: workspace `/w`, home `/h`. -/
def env : Env Nat where
  ws := some "/w".toList
  home := "/h".toList
  canonical := fun r p => r ++ "/".toList ++ p
  isFile := fun p => p ∈ ["/h/.just-mrrc".toList, "/w/rc".toList, "/w/etc/repos.json".toList,
    "/h/.just-repos.json".toList, "/tmp/rc".toList]
  isDir := fun p => p ∈ ["/h/d".toList, "/w/d".toList]
  content := fun p => if p = "/h/.just-mrrc".toList then some user
    else if p = "/w/rc".toList then some project else none
  level := id
  unsigned := id

/-- An rc file given explicitly that is not there. -/
example : readRc env { rcPath := some "/nowhere".toList } = none := C98_missing rfl rfl (.inl rfl)

/-- The effective rc exists, and the hypotheses on locations hold. -/
example : ∃ rc a', effective env {} = some rc ∧ readRc env {} = some a' ∧
    a'.address = some "project".toList ∧ a'.git = some "//bin/git".toList ∧
    a'.distdirs = ["/w/d".toList, "/h/d".toList] ∧ a'.logFiles = ["/w/log".toList] ∧
    a'.justArgs.find "build".toList = some ["-J".toList, "8".toList] ∧
    a'.justArgs.find "install".toList = some ["--remember".toList] ∧
    a'.invocation.directory = some "/h/log".toList ∧ a'.invocation.projectId = some "p".toList ∧
    a'.configFile = some "/w/etc/repos.json".toList :=
  ⟨_, _, rfl, rfl, by decide, by decide, by decide, by decide, by decide, by decide, by decide, by decide,
    by decide⟩

/-- The command line wins. -/
example : ∃ a', readRc env { address := some "cmd".toList } = some a' ∧ a'.address = some "cmd".toList :=
  ⟨_, rfl, rfl⟩

theorem plain_loc (root path : String) (h : root ∈ ["workspace", "home", "system"]) : Plain (loc root path) := by
  simp only [List.mem_cons, List.not_mem_nil, or_false] at h
  rcases h with rfl | rfl | rfl
  · exact .inr (.inl rfl)
  · exact .inr (.inr (.inl rfl))
  · exact .inr (.inr (.inr rfl))

example : PlainFiles env {} := by
  intro base l hb hl j hj
  have h1 : (obtain env {}).bind (fun b => b.find "rc files".toList) =
      some (.arr [loc "workspace" "rc", loc "workspace" "none"]) := rfl
  rw [hb, Option.bind_some, hl] at h1
  cases h1
  simp only [List.mem_cons, List.not_mem_nil, or_false] at hj
  rcases hj with rfl | rfl <;> exact plain_loc _ _ (by decide)

/-- The locations of the effective rc have known roots. -/
example : ∃ rc, effective env {} = some rc ∧ PlainRc rc := by
  refine ⟨_, rfl, ?_, ?_, ?_, ?_⟩
  · intro k hk
    simp only [List.mem_cons, List.not_mem_nil, or_false] at hk
    rcases hk with rfl | rfl | rfl | rfl
    · exact .inl rfl
    · exact .inl rfl
    · exact .inl rfl
    · exact .inr (.inr (.inr rfl))
  · intro k hk j hj
    simp only [List.mem_cons, List.not_mem_nil, or_false] at hk
    rcases hk with rfl | rfl | rfl | rfl
    · change j ∈ [loc "workspace" "d", loc "home" "d", loc "home" "missing"] at hj
      simp only [List.mem_cons, List.not_mem_nil, or_false] at hj
      rcases hj with rfl | rfl | rfl <;> exact plain_loc _ _ (by decide)
    · change j ∈ [] at hj; cases hj
    · change j ∈ [] at hj; cases hj
    · change j ∈ [loc "workspace" "log"] at hj
      simp only [List.mem_cons, List.not_mem_nil, or_false] at hj
      subst hj
      exact plain_loc _ _ (by decide)
  · intro k hk s j hs hj
    simp only [List.mem_cons, List.not_mem_nil, or_false] at hk hs
    rcases hk with rfl | rfl
    · have : get s (.null : Json Nat) = some j := hj
      cases this
    · rcases hs with rfl | rfl | rfl | rfl
      · have : none = some j := hj
        cases this
      · have : none = some j := hj
        cases this
      · have : none = some j := hj
        cases this
      · have : some (loc "home" "log") = some j := hj
        cases this
        exact plain_loc _ _ (by decide)
  · intro s j hj
    have : get s (.obj [] : Json Nat) = some j := hj
    cases this

/-- A machine with given content of the rc file, and of the file `/w/rc`. -/
def machine (rc rc' : Json Nat) : Env Nat where
  ws := some "/w".toList
  home := "/h".toList
  canonical := fun r p => r ++ "/".toList ++ p
  isFile := fun p => p ∈ ["/h/.just-mrrc".toList, "/w/rc".toList]
  isDir := fun _ => true
  content := fun p => if p = "/h/.just-mrrc".toList then some rc else if p = "/w/rc".toList then some rc' else none
  level := id
  unsigned := id

end Example

open Example in
/-- V81: the root of a location is not one of `"workspace"`, `"home"`, and `"system"`; the location is not
rejected, but taken relative to the working directory. -/
theorem C98_violation_root : ∃ (env : Env Nat) (j : Json Nat) (a' : Args Nat),
    env.content "/h/.just-mrrc".toList = some (.obj [("git".toList, j)]) ∧ ¬ KnownRoot j ∧
    readRc env {} = some a' ∧ a'.git = some (env.canonical [] "bin/git".toList) := by
  refine ⟨machine (object [("git", loc "Home" "bin/git")]) .null, loc "Home" "bin/git", _, rfl, ?_, rfl, rfl⟩
  have hg : get "root".toList (loc "Home" "bin/git") = some (.str "Home".toList) := rfl
  unfold KnownRoot
  rw [hg]
  rintro (h | h | h)
  · injection h with h; injection h with h; exact absurd h (by decide)
  · injection h with h; injection h with h; exact absurd h (by decide)
  · injection h with h; injection h with h; exact absurd h (by decide)

open Example in
/-- V82: a directory given as `--distdir` is looked at last, even if no rc file is used; the manual
(share/man/just-mr.1.md:109-112) has it as the first place. -/
theorem C98_violation_distdir : ∃ (env : Env Nat) (a a' : Args Nat) (d : Str), a.norc = true ∧
    a.explicitDistdirs = [d] ∧ readRc env a = some a' ∧
    (complete env a').distdirs = [env.home ++ "/.distfiles".toList, d] :=
  ⟨machine .null .null, { norc := true, explicitDistdirs := ["/d".toList] }, _, "/d".toList, rfl, rfl, rfl, rfl⟩

open Example in
/-- V83: a malformed value for `"distdirs"` is an error, but is silently ignored once some file, even an empty
one, is overlaid. -/
theorem C98_violation_masked : ∃ (env env' : Env Nat) (j : Json Nat) (l : Json Nat),
    env.content "/h/.just-mrrc".toList = some (.obj [("distdirs".toList, j)]) ∧
    env'.content "/h/.just-mrrc".toList = some (.obj [("distdirs".toList, j), ("rc files".toList, l)]) ∧
    readRc env {} = none ∧ ∃ a', readRc env' {} = some a' ∧ a'.distdirs = [] :=
  ⟨machine (object [("distdirs", .str "/d".toList)]) .null,
    machine (object [("distdirs", .str "/d".toList), ("rc files", .arr [loc "workspace" "rc"])]) (.obj []),
    .str "/d".toList, .arr [loc "workspace" "rc"], rfl, rfl, rfl, _, rfl, rfl⟩

end Verif.MrRc
