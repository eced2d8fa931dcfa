import Verif.Mirrors.Props

/-!
# C113: examples and violations
-/

namespace Verif.Mirrors

open Verif

namespace Ex

/-- The host name is what is between `//` and the next `/`; none without `//`. -/
def host : Str → Option Str
  | '/' :: '/' :: t => some (t.takeWhile (· ≠ '/'))
  | _ :: t => host t
  | [] => none

/-- Three URLs with different host names. -/
def main : Str := "https://a/x".toList
/-- See `main`. -/
def good : Str := "https://b/x".toList
/-- See `main`. -/
def other : Str := "https://c/x".toList
/-- A local mirror. -/
def near : Str := "https://near/x".toList

/-- What the user gives: a local mirror and a preferred host name. -/
def given : Given Nat :=
  ⟨.obj [(main, .arr [.str near])], .arr [.str ['c'], .str ['b']], .arr [.str "SSH".toList]⟩

/-- Nothing is given. -/
def nothing : Given Nat := ⟨.null, .null, .null⟩

/-- Hash functions that keep the text. -/
def hashes : Hashes := ⟨id, id, id⟩

/-- An archive. -/
def archive : Archive := ⟨['x'], main, [good, other], some ['x'], none⟩

/-- A commit. -/
def commit : Commit := ⟨['x'], main, "main".toList, ["PATH".toList], [good, other]⟩

/-- A repository given as a file. -/
def file : Str := "file:///r".toList

/-- A local mirror for it. -/
def byFile : Given Nat := ⟨.obj [(file, .arr ([near].map .str))], .null, .null⟩

/-- A commit of it. -/
def fileCommit : Commit := ⟨['x'], file, ['m'], [], []⟩

end Ex

open Ex

/-- Host names in the list come first, in the order of the list; `c` before `b`. -/
example : sortByHostname host [main, good, other, good] [['c'], ['b']] = [other, good, good, main] := by decide +kernel

example : Preferred host [['c'], ['b']] good main ∧ ([] : Str) ∉ [['c'], ['b']] :=
  ⟨⟨[['c']], ['b'], [], rfl, by decide, by decide +kernel, by decide +kernel⟩, by decide⟩

example : LocalFor given main [near] ∧ PreferredHosts given [['c'], ['b']] ∧
    locations host given main [good, other] = [near, other, good, main] :=
  ⟨.inl ⟨_, rfl, by rw [assoc, if_pos rfl]; rfl⟩, .inl rfl, by decide +kernel⟩

example : LocalFor nothing main [] ∧ PreferredHosts nothing [] ∧ locations host nothing main [good] = [main, good] :=
  ⟨.inr ⟨rfl, fun _ h => nomatch h⟩, .inr ⟨rfl, rfl⟩, by decide +kernel⟩

/-- One entry that is no text. -/
example : ∃ o a v, (⟨.obj [(main, .arr [.str near, .num 1])], .null, .null⟩ : Given Nat).mirrors = .obj o ∧
    assoc main o = some (.arr a) ∧ v ∈ a ∧ ∀ s, v ≠ .str s :=
  ⟨_, _, .num 1, rfl, by rw [assoc, if_pos rfl], by simp, fun _ h => nomatch h⟩

/-- The first location that answers is the third one. -/
example : archive.url ≠ [] ∧
    fetchArchive hashes host given (fun _ u => if u = good then some ['x'] else none) archive = ([near, other, good], some ['x']) := by
  decide +kernel

/-- Everything that is answered is right. -/
example : (∀ u ∈ [near] ++ archive.url :: archive.mirrors, ∀ d, (if u = good then some ['x'] else none) = some d →
    Checked hashes archive d) ∧ ∃ u ∈ [near] ++ archive.url :: archive.mirrors, (if u = good then some ['x'] else none) ≠ none := by
  refine ⟨fun u _ d hd => ?_, good, by decide +kernel, by decide +kernel⟩
  split at hd
  · cases hd
    exact ⟨rfl, fun x h => Option.some.inj h, fun x h => nomatch h⟩
  · exact nomatch hd

/-- The first source that can be fetched from is the second one. -/
example : ¬ IsPath commit.url ∧ fetchCommit host "/w".toList given (fun _ u _ e => if u = other ∧ e = ["PATH".toList, "SSH".toList]
    then some [['x']] else none) commit = ([near, other], true) := by
  refine ⟨?_, by decide +kernel⟩
  rintro (h | h | h) <;> exact absurd (List.isPrefixOf_iff_prefix.mpr h) (by decide +kernel)

example : source "/w".toList "file:///r/../s".toList = "/s".toList ∧ source "/w".toList "./s/".toList = "/w/s".toList ∧
    ['/'] <+: "/r/../s".toList ∧ ['.', '/'] <+: "./s/".toList := by
  refine ⟨by decide +kernel, by decide +kernel, ⟨_, rfl⟩, ⟨_, rfl⟩⟩

/-- **C113 fails for the empty host name.** With the empty text in the list of preferred host names, URLs with host names that are not
in the list come before those with a host name further behind in the list. -/
theorem C113_violation_empty : ∃ hs : List Str, ¬ Listed host hs main ∧ Listed host hs good ∧ Preferred host hs good main ∧
    sortByHostname host [main, good] hs = [main, good] := by
  refine ⟨[[], ['b']], ?_, ⟨['b'], by decide, by decide +kernel⟩, ⟨[[]], ['b'], [], rfl, by decide, by decide +kernel, by decide +kernel⟩,
    by decide +kernel⟩
  rintro ⟨h, hm, e⟩
  have e' : host main = some ['a'] := by decide +kernel
  rw [e'] at e
  cases e
  exact absurd hm (by decide)

/-- **C113 fails for wrong answers.** An archive is not fetched though a mirror has it, if another location is asked before and answers
with something else. -/
theorem C113_violation_wrong : ∃ (web : Str → Option Str), (∃ u ∈ archive.url :: archive.mirrors, ∃ d, web u = some d ∧ Checked hashes archive d) ∧
    (fetchArchive hashes host nothing (fun _ => web) archive).2 = none := by
  refine ⟨fun u => if u = good then some ['x'] else some ['y'], ⟨good, by decide +kernel, ['x'], by decide +kernel, rfl, ?_, ?_⟩,
    by decide +kernel⟩
  · intro x h; exact Option.some.inj h
  · intro x h; exact nomatch h

/-- **C113 fails for mirrors that are behind.** A commit is not fetched though it is in the branch of the repository, if a local mirror
has the branch, but not yet the commit. -/
theorem C113_violation_stale : ∃ (web : Str → Option (List Str)), (∃ cs, web commit.url = some cs ∧ commit.hash ∈ cs) ∧
    fetchCommit host "/w".toList given (fun _ u _ _ => web u) commit = ([near], false) := by
  refine ⟨fun u => if u = main then some [['y'], ['x']] else if u = near then some [['y']] else none, ⟨[['y'], ['x']], if_pos rfl, by decide +kernel⟩,
    by decide +kernel⟩

/-- **C113 fails for repositories given by a path.** Local mirrors given for a URL with `file://`, or for a relative path, are not used
for a git repository with this URL, which is looked up by its absolute path. -/
theorem C113_violation_path : ∃ (M : Given Nat) (c : Commit) (l : List Str), LocalFor M c.url l ∧ l ≠ [] ∧
    ∀ net : Fetch, ∀ u ∈ l, u ∉ (fetchCommit host "/w".toList M net c).1 := by
  have one : ∀ (k : Str) (v : Json Nat), assoc k [(k, v)] = some v := fun k v => by rw [assoc, if_pos rfl]
  have miss : near ∉ ["/r".toList] := by decide +kernel
  refine ⟨byFile, fileCommit, [near], .inl ⟨_, rfl, one file _⟩, by simp, ?_⟩
  intro net u hu
  rw [List.mem_singleton.mp hu]
  have e : (locations host byFile (source "/w".toList fileCommit.url) fileCommit.mirrors).map (source "/w".toList) = ["/r".toList] := by
    decide +kernel
  have t : (tryFetch net fileCommit.branch (inheritEnv byFile.env fileCommit.env) [] ["/r".toList]).1 = ["/r".toList] := by
    rw [tryFetch]
    cases net [] "/r".toList fileCommit.branch (inheritEnv byFile.env fileCommit.env) <;> rfl
  have f : (fetchCommit host "/w".toList byFile net fileCommit).1 = ["/r".toList] := by
    rw [fetchCommit, e]
    generalize tryFetch net fileCommit.branch (inheritEnv byFile.env fileCommit.env) [] ["/r".toList] = r at t
    obtain ⟨x, o⟩ := r
    cases o <;> exact t
  rw [f]
  exact miss

end Verif.Mirrors
