import Verif.Repo.KeyProps

/-!
# Keys of repositories: caching of keys, and examples (C49)
-/

namespace Verif.Repo

open Verif Verif.Expr

/-- repository_config.hpp:175-187: the repositories and the keys already computed (also if there is none). The
duplicates are always those of the current repositories, as every change of a repository resets them. -/
structure Cached where
  repos : Config
  keys : List (Str × Option (Str × Nat))
  deriving DecidableEq

/-- repository_config.hpp:59-64 (`SetInfo`): only the key of the repository itself is reset. -/
def setInfo (repo : Str) (info : Info) (s : Cached) : Cached :=
  ⟨(repo, info) :: s.repos.filter fun p => p.1 ≠ repo, s.keys.filter fun p => p.1 ≠ repo⟩

/-- repository_config.cpp:40-57 (`RepositoryKey`), with the keys already computed; `dup` are the duplicates. -/
def getKey (blob : Str → Str) (dup : Config → List (Str × Str)) (repo : Str) (s : Cached) :
    Option (Str × Nat) × Cached :=
  match assoc (representative (dup s.repos) repo) s.repos with
  | none => (none, s)
  | some _ =>
    match assoc (representative (dup s.repos) repo) s.keys with
    | some k => (k, s)
    | none => (repositoryKey blob s.repos (dup s.repos) repo,
        ⟨s.repos, (representative (dup s.repos) repo, repositoryKey blob s.repos (dup s.repos) repo) :: s.keys⟩)

/-- Requests of keys, one after the other. -/
def getKeys (blob : Str → Str) (dup : Config → List (Str × Str)) : List Str → Cached → List (Option (Str × Nat))
  | [], _ => []
  | r :: t, s => (getKey blob dup r s).1 :: getKeys blob dup t (getKey blob dup r s).2

/-- Setting up a configuration. -/
def configure (l : List (Str × Info)) : Cached := l.foldl (fun s p => setInfo p.1 p.2 s) ⟨[], []⟩

theorem configure_keys (l : List (Str × Info)) : (configure l).keys = [] := by
  have : ∀ (l : List (Str × Info)) (s : Cached), s.keys = [] → (l.foldl (fun s p => setInfo p.1 p.2 s) s).keys = [] := by
    intro l
    induction l with
    | nil => exact fun s h => h
    | cons p l ih =>
      intro s h
      refine ih _ ?_
      unfold setInfo
      simp only [h, List.filter_nil]
  exact this l _ rfl

/-- The cached keys are those of the current repositories. -/
def Current (blob : Str → Str) (dup : Config → List (Str × Str)) (s : Cached) : Prop :=
  ∀ u k, assoc u s.keys = some k → ∃ repo, u = representative (dup s.repos) repo ∧
    k = repositoryKey blob s.repos (dup s.repos) repo

theorem getKey_current {blob : Str → Str} {dup : Config → List (Str × Str)} {s : Cached} (h : Current blob dup s) (repo : Str) :
    (getKey blob dup repo s).1 = repositoryKey blob s.repos (dup s.repos) repo ∧
    (getKey blob dup repo s).2.repos = s.repos ∧ Current blob dup (getKey blob dup repo s).2 := by
  unfold getKey
  cases hd : assoc (representative (dup s.repos) repo) s.repos with
  | none =>
    refine ⟨?_, rfl, h⟩
    unfold repositoryKey storedText
    rw [hd]
    rfl
  | some i =>
    cases hk : assoc (representative (dup s.repos) repo) s.keys with
    | some k =>
      refine ⟨?_, rfl, h⟩
      obtain ⟨r, hr, rfl⟩ := h _ _ hk
      unfold repositoryKey storedText
      rw [hr]
    | none =>
      refine ⟨rfl, rfl, fun u k hu => ?_⟩
      by_cases he : u = representative (dup s.repos) repo
      · simp only [assoc, if_pos he] at hu
        injection hu with hu
        exact ⟨repo, he, hu.symm⟩
      · simp only [assoc, if_neg he] at hu
        exact h u k hu

/-- **C49.** Once the configuration is set up, every request of a key, whatever was requested before, gives the key of
the repository in this configuration. -/
theorem C49_requests (blob : Str → Str) (dup : Config → List (Str × Str)) (l : List (Str × Info)) (repos : List Str) :
    getKeys blob dup repos (configure l) =
      repos.map fun r => repositoryKey blob (configure l).repos (dup (configure l).repos) r := by
  have : ∀ (repos : List Str) (s : Cached), Current blob dup s →
      getKeys blob dup repos s = repos.map fun r => repositoryKey blob s.repos (dup s.repos) r := by
    intro repos
    induction repos with
    | nil => exact fun _ _ => rfl
    | cons r t ih =>
      intro s h
      obtain ⟨h1, h2, h3⟩ := getKey_current h r
      rw [getKeys, List.map_cons, h1, ih _ h3, h2]
  exact this repos _ fun u k hu => by rw [configure_keys] at hu; exact nomatch hu

/-! ## Examples -/

/-- A content-fixed repository. -/
def demoInfo (tree : Str) (names : List (Str × Str)) : Info :=
  ⟨some ⟨false, tree⟩, some ⟨false, tree⟩, some ⟨false, tree⟩, some ⟨true, tree⟩, "TARGETS".toList, "RULES".toList,
    "EXPRESSIONS".toList, names⟩

/-- Two repositories that refer to each other, a copy of one of them, and one that is not content fixed. -/
def demoConfig : Config :=
  [("a".toList, demoInfo "0".toList [("x".toList, "b".toList)]),
   ("b".toList, demoInfo "1".toList [("y".toList, "a".toList)]),
   ("c".toList, demoInfo "0".toList [("x".toList, "b".toList)]),
   ("d".toList, { demoInfo "0".toList [("x".toList, "a".toList)] with ruleRoot := none })]

/-- The same with other names and in another order. -/
def demoConfig' : Config :=
  [("q".toList, demoInfo "1".toList [("y".toList, "p".toList)]),
   ("p".toList, demoInfo "0".toList [("x".toList, "q".toList)])]

/-- The duplicates for one order of traversals. -/
def demoDup (C : Config) : List (Str × Str) :=
  (computeBisimulation (automaton demoPlain C) (createPairs (automaton demoPlain C)) (automaton demoPlain C)).getD []
where
  /-- A hash function for the examples. -/
  demoPlain (s : Str) : Str := s.map fun c => Char.ofNat (c.toNat % 128)

theorem demoPlain_bytes (s : Str) : ∀ c ∈ demoDup.demoPlain s, c.toNat < 256 := by
  intro c hc
  obtain ⟨d, _, rfl⟩ := List.mem_map.mp hc
  have h : d.toNat % 128 < 128 := Nat.mod_lt _ (by decide)
  revert h
  generalize d.toNat % 128 = n
  intro h
  have : (Char.ofNat n).toNat = n := by
    unfold Char.ofNat
    rw [dif_pos (Or.inl (by omega))]
    rfl
  omega

instance (C : Config) : Decidable (NoCollision demoDup.demoPlain C.texts) :=
  inferInstanceAs (Decidable (∀ s ∈ C.texts, ∀ t ∈ C.texts, _ → _))

theorem demo_asc {n : Str} {t : Str} : Ascending [(n, t)] := by
  unfold Ascending
  simp

theorem demoConfig_setup : Setup demoDup.demoPlain demoConfig (demoDup demoConfig) := by
  refine ⟨⟨by decide +kernel, ?_⟩, demoPlain_bytes, by decide +kernel, ?_⟩
  · intro p hp
    have h : ∀ p ∈ demoConfig, ∃ n t, p.2.nameMapping = [(n, t)] := by
      intro p hp
      unfold demoConfig at hp
      simp only [List.mem_cons, List.not_mem_nil, or_false] at hp
      rcases hp with rfl | rfl | rfl | rfl <;> exact ⟨_, _, rfl⟩
    obtain ⟨n, t, h⟩ := h p hp
    rw [h]
    exact demo_asc
  · refine ⟨_, _, List.Perm.refl _, List.Perm.refl _, ?_⟩
    have : (computeBisimulation (automaton demoDup.demoPlain demoConfig)
      (createPairs (automaton demoDup.demoPlain demoConfig)) (automaton demoDup.demoPlain demoConfig)).isSome = true := by
      decide +kernel
    obtain ⟨R, hR⟩ := Option.isSome_iff_exists.mp this
    unfold demoDup
    rw [hR]
    rfl

theorem demoConfig'_setup : Setup demoDup.demoPlain demoConfig' (demoDup demoConfig') := by
  refine ⟨⟨by decide +kernel, ?_⟩, demoPlain_bytes, by decide +kernel, ?_⟩
  · intro p hp
    have h : ∀ p ∈ demoConfig', ∃ n t, p.2.nameMapping = [(n, t)] := by
      intro p hp
      unfold demoConfig' at hp
      simp only [List.mem_cons, List.not_mem_nil, or_false] at hp
      rcases hp with rfl | rfl <;> exact ⟨_, _, rfl⟩
    obtain ⟨n, t, h⟩ := h p hp
    rw [h]
    exact demo_asc
  · refine ⟨_, _, List.Perm.refl _, List.Perm.refl _, ?_⟩
    have : (computeBisimulation (automaton demoDup.demoPlain demoConfig')
      (createPairs (automaton demoDup.demoPlain demoConfig')) (automaton demoDup.demoPlain demoConfig')).isSome = true := by
      decide +kernel
    obtain ⟨R, hR⟩ := Option.isSome_iff_exists.mp this
    unfold demoDup
    rw [hR]
    rfl

example : (∃ k, repositoryKey id demoConfig (demoDup demoConfig) "d".toList = some k) ↔
    ∀ w, obs (data demoConfig) w "d".toList ≠ some .unfixed := C49_exists demoConfig_setup id _

/-- A copy of a repository in another configuration has the same key; the one that is not content fixed has none. -/
example : repositoryKey id demoConfig (demoDup demoConfig) "c".toList =
      repositoryKey id demoConfig' (demoDup demoConfig') "p".toList ∧
    (repositoryKey id demoConfig (demoDup demoConfig) "c".toList).isSome = true ∧
    repositoryKey id demoConfig (demoDup demoConfig) "d".toList = none := by decide +kernel

/-- As the keys are equal, the repositories look the same. -/
example : ∀ w, obs (data demoConfig) w "c".toList = obs (data demoConfig') w "p".toList := by
  have h : (repositoryKey id demoConfig (demoDup demoConfig) "c".toList).isSome = true := by decide +kernel
  have h' : (repositoryKey id demoConfig' (demoDup demoConfig') "p".toList).isSome = true := by decide +kernel
  have e : repositoryKey id demoConfig (demoDup demoConfig) "c".toList =
    repositoryKey id demoConfig' (demoDup demoConfig') "p".toList := by decide +kernel
  obtain ⟨k, hk⟩ := Option.isSome_iff_exists.mp h
  obtain ⟨k', hk'⟩ := Option.isSome_iff_exists.mp h'
  refine (C49_key demoConfig_setup demoConfig'_setup (fun _ _ _ _ h => h) hk hk').mp ?_
  rw [hk, hk'] at e
  injection e

/-- **C49, violated for changes after requests.** `a` refers to `b`. The key of `a` is requested, `b` is changed by
`SetInfo`, and the key of `a` is requested again: the old key is returned, although `a` now has another one. -/
theorem C49_violation_stale :
    ∃ (s s' : Cached) (k k' : Str × Nat),
      s = configure demoConfig ∧ (getKey id demoDup "a".toList s).1 = some k ∧
      s' = setInfo "b".toList (demoInfo "2".toList [("y".toList, "a".toList)]) (getKey id demoDup "a".toList s).2 ∧
      (getKey id demoDup "a".toList s').1 = some k ∧
      repositoryKey id s'.repos (demoDup s'.repos) "a".toList = some k' ∧ k ≠ k' := by
  refine ⟨_, _, ((getKey id demoDup "a".toList (configure demoConfig)).1).getD ([], 0),
    (repositoryKey id (setInfo "b".toList (demoInfo "2".toList [("y".toList, "a".toList)])
      (getKey id demoDup "a".toList (configure demoConfig)).2).repos
      (demoDup (setInfo "b".toList (demoInfo "2".toList [("y".toList, "a".toList)])
      (getKey id demoDup "a".toList (configure demoConfig)).2).repos) "a".toList).getD ([], 0), rfl, ?_, rfl, ?_, ?_, ?_⟩
  all_goals decide +kernel

end Verif.Repo
