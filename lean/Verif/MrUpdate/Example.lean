import Verif.MrUpdate.Props

/-!
# `just-mr update` (C112): examples and violations
-/

namespace Verif.MrUpdate

open Verif Verif.MrConfig

/-- A git repository. -/
def gitDesc (url branch : String) (env : List String) : Json Unit :=
  .obj [("branch".toList, .str branch.toList), ("commit".toList, .str "0".toList),
    ("inherit env".toList, .arr (env.map fun e => .str e.toList)), ("repository".toList, .str url.toList),
    ("type".toList, .str "git".toList)]

/-- A configuration with these repositories. -/
def config (repos : List (String × Json Unit)) : Json Unit :=
  .obj [("main".toList, .str "a".toList),
    ("repositories".toList, .obj (repos.map fun x => (x.1.toList, .obj [("bindings".toList, .obj []), ("repository".toList, x.2)])))]

/-- A text at a place. -/
def textAt (p : List Str) (cfg : Json Unit) : Option Str :=
  match get p cfg with
  | some (.str s) => some s
  | _ => none

/-- Remotes with some references. -/
def web (refs : List (String × String)) : Remote where
  direct u := u = "https://x".toList
  refs u := if u = "https://x".toList then some (refs.map fun x => (x.1.toList, x.2.toList)) else none
  lsRemote u _ env := if u = "ssh://y".toList ∧ "KEY".toList ∈ env then some "7\trefs/heads/main\n".toList else none
  extra := []

/-- The usual case. -/
def usual : Remote := web [("HEAD", "1"), ("refs/heads/dev", "2"), ("refs/heads/main", "1")]

/-- Three repositories, one of them an alias. -/
def three : Json Unit :=
  config [("a", gitDesc "https://x" "main" []), ("b", gitDesc "ssh://y" "main" ["KEY"]), ("c", .str "a".toList)]

example : (update usual ["a".toList, "b".toList] three).bind (textAt (place "a".toList)) = some "1".toList := by decide +kernel
example : (update usual ["a".toList, "b".toList] three).bind (textAt (place "b".toList)) = some "7".toList := by decide +kernel
example : (update usual ["b".toList] three).bind (textAt (place "a".toList)) = some "0".toList := by decide +kernel
example : (update usual ["d".toList] three).isNone = true := by decide +kernel

theorem own_a : Own three "a".toList ⟨"https://x".toList, "main".toList, []⟩ := ⟨_, rfl, rfl, rfl, rfl, .inr rfl⟩
theorem own_b : Own three "b".toList ⟨"ssh://y".toList, "main".toList, ["KEY".toList]⟩ := ⟨_, rfl, rfl, rfl, rfl, .inr rfl⟩

theorem agree : Agree usual ["a".toList, "b".toList] three := by
  intro n hn m hm d d' h1 h2 h3 h4
  rcases List.mem_cons.1 hn with rfl | hn
  · cases h1.det own_a
    exact .inr rfl
  · cases List.mem_singleton.1 hn
    rcases List.mem_cons.1 hm with rfl | hm
    · cases h2.det own_a
      rw [h3]
      exact .inr rfl
    · cases List.mem_singleton.1 hm
      exact .inl (by rw [h1.det h2])

/-- `C112_success_partial` applies. -/
example : ∃ cfg', update usual ["a".toList, "b".toList] three = some cfg' := by
  refine (C112_success_partial agree).2 fun n hn => ?_
  rcases List.mem_cons.1 hn with rfl | hn
  · refine ⟨_, "1".toList, own_a, commit_iff.1 (by decide +kernel)⟩
  · cases List.mem_singleton.1 hn
    exact ⟨_, "7".toList, own_b, commit_iff.1 (by decide +kernel)⟩

/-- `C112_same` applies: the description of the other repository is what it was. -/
example {cfg' : Json Unit} (h : update usual ["a".toList] three = some cfg') :
    get ["repositories".toList, "b".toList] cfg' = get ["repositories".toList, "b".toList] three :=
  C112_same h _ fun n hn => by
    cases List.mem_singleton.1 hn
    decide

/-- `C112_commit` and `C112_own_partial` apply. -/
example {cfg' : Json Unit} (h : update usual ["a".toList, "b".toList] three = some cfg') : ∃ d c, Own three "b".toList d ∧
    Offers usual d c ∧ get (place "b".toList) cfg' = some (.str c) :=
  C112_own_partial agree h (by decide)

/-- `C112_head_partial` applies, with another reference that is not the branch. -/
example : Offers (web [("refs/heads/dev", "2"), ("refs/heads/main", "1")]) ⟨"https://x".toList, "main".toList, []⟩ "1".toList := by
  refine (C112_head_partial (refs := [("refs/heads/dev".toList, "2".toList), ("refs/heads/main".toList, "1".toList)]) (by decide)
    (by decide +kernel) (by decide) (by decide) fun x hx hl => ?_).2 rfl
  rcases List.mem_cons.1 hx with rfl | hx
  · have := (filename_iff _ _).2 hl
    revert this
    decide +kernel
  · cases List.mem_singleton.1 hx
    decide

/-! ## Violations -/

/-- **C112, violation.** A repository given as an alias of a git repository can never be updated, although the manual has no such
restriction, and the code resolves aliases: the commit is to be set in the text that is the name. -/
theorem C112_violation_alias : ∃ d c, Describes (match get ["repositories".toList] three with
      | some (.obj l) => l
      | _ => []) "c".toList (gitDesc "https://x" "main" []) ∧ Own three "a".toList d ∧ Offers usual d c ∧
    update usual ["c".toList] three = none := by
  refine ⟨_, "1".toList, ?_, own_a, commit_iff.1 (by decide +kernel), ?_⟩
  · exact .via (b := "a".toList) ⟨nofun, _, rfl, rfl⟩ (.here rfl rfl nofun)
  · have h : (update usual ["c".toList] three).isNone = true := by decide +kernel
    exact Option.isNone_iff_eq_none.1 h

/-- **C112, violation.** A branch with a slash in its name is never found with libgit2. -/
theorem C112_violation_slash : ∃ (W : Remote) (refs : List (Str × Str)) (cfg : Json Unit), W.direct "https://x".toList = true ∧
    W.refs "https://x".toList = some refs ∧ ("refs/heads/release/1".toList, "5".toList) ∈ refs ∧
    Own cfg "a".toList ⟨"https://x".toList, "release/1".toList, []⟩ ∧ update W ["a".toList] cfg = none := by
  refine ⟨web [("refs/heads/main", "1"), ("refs/heads/release/1", "5")],
    [("refs/heads/main".toList, "1".toList), ("refs/heads/release/1".toList, "5".toList)],
    config [("a", gitDesc "https://x" "release/1" [])], by decide, by decide +kernel, by decide, ⟨_, rfl, rfl, rfl, rfl, .inr rfl⟩, ?_⟩
  have h : (update (web [("refs/heads/main", "1"), ("refs/heads/release/1", "5")]) ["a".toList]
    (config [("a", gitDesc "https://x" "release/1" [])])).isNone = true := by decide +kernel
  exact Option.isNone_iff_eq_none.1 h

/-- **C112, violation.** The commit of another branch is taken, if its last component is the same and it comes first. -/
theorem C112_violation_branch : ∃ (W : Remote) (refs : List (Str × Str)) (cfg cfg' : Json Unit), W.direct "https://x".toList = true ∧
    W.refs "https://x".toList = some refs ∧ ("refs/heads/main".toList, "1".toList) ∈ refs ∧
    Own cfg "a".toList ⟨"https://x".toList, "main".toList, []⟩ ∧ update W ["a".toList] cfg = some cfg' ∧
    get (place "a".toList) cfg' = some (.str "6".toList) := by
  have h : (update (web [("refs/heads/legacy/main", "6"), ("refs/heads/main", "1")]) ["a".toList]
    (config [("a", gitDesc "https://x" "main" [])])).bind (textAt (place "a".toList)) = some "6".toList := by decide +kernel
  obtain ⟨cfg', h1, h2⟩ := Option.bind_eq_some_iff.1 h
  refine ⟨_, [("refs/heads/legacy/main".toList, "6".toList), ("refs/heads/main".toList, "1".toList)], _, cfg', by decide,
    by decide +kernel, by decide, ⟨_, rfl, rfl, rfl, rfl, .inr rfl⟩, h1, ?_⟩
  unfold textAt at h2
  split at h2
  · rename_i s hs
    cases h2
    exact hs
  · cases h2

/-- Two repositories with the same branch of the same URL. -/
def twins : Json Unit := config [("a", gitDesc "ssh://y" "main" []), ("b", gitDesc "ssh://y" "main" ["KEY"])]

/-- **C112, violation.** Whether a repository can be updated depends on which others are, as the environment may be that of another
one. -/
theorem C112_violation_env : ∃ d c, Own twins "b".toList d ∧ Offers usual d c ∧
    (∃ cfg', update usual ["b".toList] twins = some cfg') ∧ (∃ cfg', update usual ["b".toList, "a".toList] twins = some cfg') ∧
    update usual ["a".toList, "b".toList] twins = none := by
  have h1 : (update usual ["b".toList] twins).isSome = true := by decide +kernel
  have h2 : (update usual ["b".toList, "a".toList] twins).isSome = true := by decide +kernel
  have h3 : (update usual ["a".toList, "b".toList] twins).isNone = true := by decide +kernel
  exact ⟨⟨"ssh://y".toList, "main".toList, ["KEY".toList]⟩, "7".toList, ⟨_, rfl, rfl, rfl, rfl, .inr rfl⟩,
    commit_iff.1 (by decide +kernel), Option.isSome_iff_exists.1 h1, Option.isSome_iff_exists.1 h2, Option.isNone_iff_eq_none.1 h3⟩

/-- setup_utils.cpp:250-300 and main.cpp:416-451: what is printed with a file of absent repositories. -/
def updateWith (absent : List Str) (W : Remote) (names : List Str) (cfg : Json Unit) : Option (Json Unit) :=
  match cfg with
  | .obj top =>
    match assoc "repositories".toList top with
    | some (.obj repos) =>
      (overrideAbsent absent repos).bind fun repos' =>
        update W names (.obj (OMap.insertList (fun _ w => w) "repositories".toList (.obj repos') top))
    | _ => none
  | _ => none

/-- A truth value at a place. -/
def boolAt (p : List Str) (cfg : Json Unit) : Option Bool :=
  match get p cfg with
  | some (.bool b) => some b
  | _ => none

/-- **C112, violation.** With a file of absent repositories, which may be given by the rc file, the configuration printed also has
pragmas that are not in the configuration file, even if nothing is to be updated. -/
theorem C112_violation_absent : ∃ cfg' p, updateWith ["a".toList] usual [] three = some cfg' ∧
    get p three = none ∧ get p cfg' = some (.bool true) := by
  have h : (updateWith ["a".toList] usual [] three).bind
      (boolAt ["repositories".toList, "a".toList, "repository".toList, "pragma".toList, "absent".toList]) = some true := by
    decide +kernel
  obtain ⟨cfg', h1, h2⟩ := Option.bind_eq_some_iff.1 h
  refine ⟨cfg', ["repositories".toList, "a".toList, "repository".toList, "pragma".toList, "absent".toList], h1, rfl, ?_⟩
  unfold boolAt at h2
  split at h2
  · rename_i s hs
    cases h2
    exact hs
  · cases h2

end Verif.MrUpdate
