import Verif.Serve.RootsProps
import Verif.Repo.KeyCache

/-!
# Examples for C100
-/

namespace Verif.Serve

open Verif Verif.MrConfig Verif.Repo

/-- The graph the client stores. -/
def demoGraph : List (Str × (Content × List (Str × Str))) :=
  match buildGraph demoConfig' (demoDup demoConfig') "p".toList with
  | .ok _ g => g.graph
  | _ => []

/-- What the blob says. -/
def demoJson : Json Empty := .obj (demoGraph.map fun p => (p.1, descJson p.2))

/-- An endpoint that has all trees in a repository it was told about. -/
def demoRepos : Repos where
  gitRoot := "/cache/git".toList
  known := ["/broken".toList, "/repos/all".toList]
  inRepo p _ := if p = "/repos/all".toList then some true else if p = "/cache/git".toList then some false else none
  opens p t _ := if p = "/repos/all".toList then some t else none

theorem demo_stored : storedText demoConfig' (demoDup demoConfig') "p".toList =
    some (Json.dump Empty.elim (Json.pretty 2) 0 demoJson) := by
  show _ = some (graphText demoGraph)
  decide +kernel

theorem demo_known (r : Root) : Known demoRepos r :=
  ⟨["/cache/git".toList, "/broken".toList], "/repos/all".toList, [], rfl, by
    intro q hq
    simp only [List.mem_cons, List.not_mem_nil, or_false] at hq
    rcases hq with rfl | rfl
    · exact (nofun : some false ≠ some true)
    · exact (nofun : none ≠ some true), rfl, rfl⟩

theorem demo_all (c : Content) : AllKnown demoRepos c := ⟨demo_known _, demo_known _, demo_known _, demo_known _⟩

/-- Two repositories with bindings in both directions are read back. -/
example : ∃ C', determineRoots demoRepos demoJson = some C' ∧ C'.length = 2 ∧
    ∀ w, obs (data (config C')) w "0".toList = obs (data demoConfig') w "p".toList := by
  obtain ⟨C', h1, _, h2⟩ := C100_roundtrip demoConfig'_setup demo_stored rfl (env := demoRepos) fun _ _ _ _ => demo_all _
  refine ⟨C', h1, ?_, h2⟩
  have : (determineRoots demoRepos demoJson).map List.length = some 2 := by decide +kernel
  rw [h1] at this
  exact Option.some.inj this

/-- What the endpoint has then. -/
def demoServed : Config :=
  [("0".toList, demoInfo "0".toList [("x".toList, "1".toList)]),
   ("1".toList, demoInfo "1".toList [("y".toList, "0".toList)])]

theorem demoServed_setup : Setup demoDup.demoPlain demoServed (demoDup demoServed) := by
  refine ⟨⟨by decide +kernel, ?_⟩, demoPlain_bytes, by decide +kernel, ?_⟩
  · intro p hp
    have h : ∀ p ∈ demoServed, ∃ n t, p.2.nameMapping = [(n, t)] := by
      intro p hp
      unfold demoServed at hp
      simp only [List.mem_cons, List.not_mem_nil, or_false] at hp
      rcases hp with rfl | rfl <;> exact ⟨_, _, rfl⟩
    obtain ⟨n, t, h⟩ := h p hp
    rw [h]
    exact demo_asc
  · refine ⟨_, _, List.Perm.refl _, List.Perm.refl _, ?_⟩
    have : (computeBisimulation (automaton demoDup.demoPlain demoServed)
      (createPairs (automaton demoDup.demoPlain demoServed)) (automaton demoDup.demoPlain demoServed)).isSome = true := by
      decide +kernel
    obtain ⟨R, hR⟩ := Option.isSome_iff_exists.mp this
    unfold demoDup
    rw [hR]
    rfl

/-- The key of the repository reached by the name `x` is the same on both sides. -/
example : ∃ n', ∀ blob, repositoryKey blob demoServed (demoDup demoServed) n' =
    repositoryKey blob demoConfig' (demoDup demoConfig') "q".toList := by
  obtain ⟨C', h1, _⟩ := C100_roundtrip demoConfig'_setup demo_stored rfl (env := demoRepos) fun _ _ _ _ => demo_all _
  have e : config C' = demoServed := by
    have : (determineRoots demoRepos demoJson).map config = some demoServed := by decide +kernel
    rw [h1] at this
    exact Option.some.inj this
  obtain ⟨n', _, _, h⟩ := C100_key (w := ["x".toList]) (n := "q".toList) demoConfig'_setup demo_stored rfl
    (fun _ _ _ _ => demo_all _) h1 (e ▸ demoServed_setup) (by decide +kernel)
  exact ⟨n', fun blob => e ▸ h blob⟩

/-- An endpoint without any tree refuses. -/
example : determineRoots ⟨"/cache/git".toList, [], fun _ _ => some false, fun _ t _ => some t⟩ demoJson = none := by
  obtain ⟨c, l, h⟩ : ∃ c l, obs (data demoConfig') [] "p".toList = some (.fixed c l) := ⟨_, _, rfl⟩
  exact C100_unknown demoConfig'_setup demo_stored rfl h (.inl fun p _ => by simp)

end Verif.Serve
