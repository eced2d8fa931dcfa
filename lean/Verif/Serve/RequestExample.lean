import Verif.Serve.RequestProps
import Verif.Serve.RootsExample
import Verif.TargetCache.Example

/-!
# Examples for C101
-/

namespace Verif.Serve

open Verif Verif.Expr Verif.Result Verif.TC Verif.Names

/-- A dispatch list as given by a user. -/
def demoDispatch : J Nat :=
  .arr [.arr [.obj [("os".toList, .str "arm".toList)], .str "build.example:8980".toList]]

/-- What is read from it. -/
def demoDispatched : List (Properties × Address) :=
  [([("os".toList, "arm".toList)], ⟨"build.example".toList, 8980⟩)]

theorem demoDispatch_read : parseDispatch demoDispatch = .go (some demoDispatched) := by
  have h : parseAddress "build.example:8980".toList = .go (some ⟨"build.example".toList, 8980⟩) := by decide +kernel
  simp only [demoDispatch, parseDispatch, parseEndpoints, parseEndpoint, readProps, h, Step.bind]
  rfl

/-- C101_dispatch, C101_shard: the dispatch list of a client, with properties, arrives. -/
example : requestShard fractions none [("image".toList, "a".toList), ("os".toList, "arm".toList)]
    (dispatchJson demoDispatched) =
    .go (describe fractions none [("image".toList, "a".toList), ("os".toList, "arm".toList)] demoDispatched) :=
  (C101_shard (props := [("image".toList, "a".toList), ("os".toList, "arm".toList)])
    (by unfold Ascending; decide +kernel) demoDispatch_read).1

/-- Text after a port and more colons are accepted; names without a port and ports that are too large are not. -/
example : parseAddress "host:80xyz".toList = .go (some ⟨"host".toList, 80⟩) ∧
    parseAddress "host:80:90".toList = .go (some ⟨"host".toList, 80⟩) ∧
    parseAddress "host".toList = .go none ∧ parseAddress "host:65536".toList = .go none ∧
    parseAddress ":80".toList = .go none ∧ parseAddress "[::1]:80".toList = .go none := by decide +kernel

/-- A configuration with one variable too many, and one that is not set. -/
def demoVars : List Str := ["ARCH".toList, "DEBUG".toList]

/-- What is left. -/
def demoPruned : List (Str × Value Nat) := [("ARCH".toList, .str "arm".toList), ("DEBUG".toList, .none)]

theorem demo_pruned : prune demoVars (.map [("ARCH".toList, .str "arm".toList), ("HOST".toList, .str "x".toList)]) =
    .go demoPruned := by
  simp only [prune, demoVars, demoPruned, List.foldl]
  simp (decide := true) [OMap.insertList, assoc]

/-- The key of the client for a target of the repository `p`. -/
def demoAsk (repoKey : Str) : KeyArgs Nat := ⟨repoKey, "src/lib".toList, "export".toList, demoPruned⟩

/-- A parser that knows the two texts. -/
def demoParse (t : Str) : Option (J Nat) :=
  if t = fractions.dump (.arr [.str "src/lib".toList, .str "export".toList]) then
    some (.arr [.str "src/lib".toList, .str "export".toList])
  else if t = fractions.dump (json fractions true (.map demoPruned)) then
    some (json fractions true (.map demoPruned))
  else none

theorem demoParse_config : demoParse (fractions.dump (json fractions true (.map demoPruned))) =
    some (json fractions true (.map demoPruned)) := by
  unfold demoParse
  rw [if_neg (by decide +kernel)]
  exact if_pos rfl

/-- C101_key_partial: the endpoint computes the key it was asked for. -/
example (blob : Str → Str) : ∃ asked repoKey size c C', determineRoots demoRepos demoJson = some C' ∧
    (∀ k, Repo.repositoryKey blob Repo.demoConfig' (Repo.demoDup Repo.demoConfig') "p".toList = some k →
      readKey demoParse (fun _ => 0) (fun _ _ => none) (keyJson fractions (demoAsk k.1)) = .go asked ∧
      Repo.repositoryKey blob (config C') (Repo.demoDup demoServed) asked.target.repo = some (repoKey, size) ∧
      prune demoVars asked.config = .go c ∧
      computeKey fractions blob ⟨repoKey, asked.target.module, asked.target.name, c⟩ =
        computeKey fractions blob (demoAsk k.1)) := by
  obtain ⟨C', h1, _⟩ := C100_roundtrip Repo.demoConfig'_setup demo_stored rfl (env := demoRepos) fun _ _ _ _ => demo_all _
  have e : config C' = demoServed := by
    have : (determineRoots demoRepos demoJson).map config = some demoServed := by decide +kernel
    rw [h1] at this
    exact Option.some.inj this
  cases hk : Repo.repositoryKey blob Repo.demoConfig' (Repo.demoDup Repo.demoConfig') "p".toList with
  | none =>
    exfalso
    unfold Repo.repositoryKey at hk
    rw [demo_stored] at hk
    cases hk
  | some k =>
    obtain ⟨asked, repoKey, size, c, h2, _, h3, h4, h5⟩ := C101_key_partial Repo.demoConfig'_setup demo_stored rfl
      (fun _ _ _ _ => demo_all _) h1 (e ▸ demoServed_setup) (h := fractions) (parseJson := demoParse) (fun _ => 0)
      (fun _ _ => none) (a := demoAsk k.1) (size := k.2) (blob := blob) hk
      ⟨["src".toList, "lib".toList], show "src/lib".toList = _ by decide +kernel, by
        unfold Path.ProperName; decide +kernel⟩
      (by
        intro kv hkv
        simp only [demoAsk, demoPruned, List.mem_cons, List.not_mem_nil, or_false] at hkv
        rcases hkv with rfl | rfl
        · exact .str _
        · exact .none)
      demo_pruned (by unfold demoParse; rw [if_pos]; rfl; rfl)
      demoParse_config
    refine ⟨asked, repoKey, size, c, C', h1, fun k' hk' => ?_⟩
    rw [e] at h3 ⊢
    have := Option.some.inj hk'
    subst this
    exact ⟨h2, h3, h4, h5⟩

end Verif.Serve
