import Verif.MrConfig.JustProps

/-!
# C97: the list of absent repositories
-/

namespace Verif.MrConfig

open Verif

section
variable {N : Type}

/-- The objects in the descriptions are sorted by keys, as every parsed JSON object is. -/
def Sorted (repos : List (Str × Json N)) : Prop :=
  Ascending repos ∧ ∀ n l, assoc n repos = some (.obj l) → Ascending l ∧
    ∀ r, field "repository".toList l = .obj r → Ascending r ∧
      ∀ p, field "pragma".toList r = .obj p → Ascending p

/-- Every repository is described by an object, and the pragmas are given by objects. -/
def WellFormed (repos : List (Str × Json N)) : Prop :=
  ∀ n j, assoc n repos = some j → ∃ l, j = .obj l ∧
    ∀ r, field "repository".toList l = .obj r →
      field "pragma".toList r = .null ∨ ∃ p, field "pragma".toList r = .obj p

theorem field_insert {k x : Str} {v : Json N} {l : List (Str × Json N)} (h : Ascending l) :
    field x (OMap.insertList (fun _ v => v) k v l) = if x = k then v else field x l := by
  simp only [field, assoc_insertList _ _ _ _ h]
  by_cases hx : x = k
  · rw [if_pos hx, if_pos hx]; cases assoc k l <;> rfl
  · rw [if_neg hx, if_neg hx]

theorem ascending_nil {V : Type} : Ascending ([] : List (Str × V)) := List.Pairwise.nil

theorem absentIs_det {r : List (Str × Json N)} {a b : Bool} (h : AbsentIs r a) (h' : AbsentIs r b) :
    a = b := by
  rcases h with ⟨h1, rfl⟩ | ⟨p, h1, h2⟩
  · rcases h' with ⟨_, rfl⟩ | ⟨p', h1', _⟩
    · rfl
    · rw [h1] at h1'; cases h1'
  · rcases h' with ⟨h1', _⟩ | ⟨p', h1', h2'⟩
    · rw [h1] at h1'; cases h1'
    · rw [h1] at h1'; cases h1'
      rcases h2 with ⟨h2, rfl⟩ | h2 <;> rcases h2' with ⟨h2', rfl⟩ | h2'
      · rfl
      · rw [h2] at h2'; cases h2'
      · rw [h2] at h2'; cases h2'
      · rw [h2] at h2'; cases h2'; rfl

/-- The fields of an object that stands for the value of a field, none if there is no object. -/
def objOf : Json N → List (Str × Json N)
  | .obj p => p
  | _ => []

/-- A description `r'` is the description `r` with the pragma "absent" set. -/
def AbsentSet (b : Bool) (r r' : List (Str × Json N)) : Prop :=
  AbsentIs r' b ∧ (∀ k, k ≠ "pragma".toList → field k r' = field k r) ∧
    ∃ p', field "pragma".toList r' = .obj p' ∧
      ∀ k, k ≠ "absent".toList → field k p' = field k (objOf (field "pragma".toList r))

theorem absentSet_insert {r p : List (Str × Json N)} {b : Bool} (hr : Ascending r) (hp : Ascending p)
    (hrp : p = objOf (field "pragma".toList r)) :
    AbsentSet b r (OMap.insertList (fun _ v => v) "pragma".toList
        (.obj (OMap.insertList (fun _ v => v) "absent".toList (.bool b) p)) r) := by
  refine ⟨Or.inr ⟨_, (by rw [field_insert hr, if_pos rfl]), Or.inr (by rw [field_insert hp, if_pos rfl])⟩,
    fun k hk => by rw [field_insert hr, if_neg hk], _, (by rw [field_insert hr, if_pos rfl]), fun k hk => ?_⟩
  rw [field_insert hp, if_neg hk, hrp]

theorem field_of_assoc {k : Str} {v : Json N} {l : List (Str × Json N)} (h : assoc k l = some v) :
    field k l = v := by
  simp only [field, h, Option.getD_some]

theorem field_none {k : Str} {l : List (Str × Json N)} (h : assoc k l = none) : field k l = .null := by
  simp only [field, h, Option.getD_none]

theorem setAbsent_some {A : List Str} {n : Str} {l l' : List (Str × Json N)} (hl : Ascending l)
    (hr : ∀ r, field "repository".toList l = .obj r → Ascending r ∧
      ∀ p, field "pragma".toList r = .obj p → Ascending p)
    (h : setAbsent A n l = some l') :
    (∀ k, k ≠ "repository".toList → field k l' = field k l) ∧
    (∀ r, assoc "repository".toList l = some (.obj r) ∨ (assoc "repository".toList l = none ∧ r = []) →
      ∃ r', field "repository".toList l' = .obj r' ∧ AbsentSet (decide (n ∈ A)) r r') ∧
    (∀ v, assoc "repository".toList l = some v → (∀ r, v ≠ .obj r) → l' = l) := by
  unfold setAbsent at h
  simp only at h
  have main : ∀ r p, Ascending r → Ascending p → p = objOf (field "pragma".toList r) →
      (assoc "repository".toList l = some (.obj r) ∨ (assoc "repository".toList l = none ∧ r = [])) →
      l' = OMap.insertList (fun _ v => v) "repository".toList
        (.obj (OMap.insertList (fun _ v => v) "pragma".toList
          (.obj (OMap.insertList (fun _ v => v) "absent".toList (.bool (decide (n ∈ A))) p)) r)) l →
      (∀ k, k ≠ "repository".toList → field k l' = field k l) ∧
      (∀ r, assoc "repository".toList l = some (.obj r) ∨ (assoc "repository".toList l = none ∧ r = []) →
        ∃ r', field "repository".toList l' = .obj r' ∧ AbsentSet (decide (n ∈ A)) r r') ∧
      (∀ v, assoc "repository".toList l = some v → (∀ r, v ≠ .obj r) → l' = l) := by
    rintro r p hra hpa hrp hor rfl
    refine ⟨fun k hk => by rw [field_insert hl, if_neg hk], fun r2 h2 => ?_, fun v hv hvo => ?_⟩
    · have : r2 = r := by
        rcases hor with hor | ⟨hor, rfl⟩ <;> rcases h2 with h2 | ⟨h2, rfl⟩
        · rw [hor] at h2; cases h2; rfl
        · rw [hor] at h2; cases h2
        · rw [hor] at h2; cases h2
        · rfl
      subst this
      exact ⟨_, by rw [field_insert hl, if_pos rfl], absentSet_insert hra hpa hrp⟩
    · rcases hor with hor | ⟨hor, _⟩
      · rw [hor] at hv; cases hv; exact absurd rfl (hvo r)
      · rw [hor] at hv; cases hv
  split at h
  · rename_i heq
    cases h
    exact main [] [] ascending_nil ascending_nil rfl (Or.inr ⟨heq, rfl⟩) rfl
  · rename_i ws heq
    obtain ⟨ha, hpa⟩ := hr ws (field_of_assoc heq)
    split at h
    · rename_i hp
      cases h
      exact main ws [] ha ascending_nil (by rw [field_none hp]; rfl) (Or.inl heq) rfl
    · rename_i hp
      cases h
      exact main ws [] ha ascending_nil (by rw [field_of_assoc hp]; rfl) (Or.inl heq) rfl
    · rename_i p hp
      cases h
      exact main ws p ha (hpa p (field_of_assoc hp)) (by rw [field_of_assoc hp]; rfl) (Or.inl heq) rfl
    · cases h
  · rename_i v hno heq
    cases h
    refine ⟨fun _ _ => rfl, fun r hor => ?_, fun _ _ _ => rfl⟩
    rcases hor with hor | ⟨hor, _⟩
    · rw [heq] at hor; cases hor; exact absurd rfl (hno r)
    · rw [heq] at hor; cases hor

theorem overrideAbsent_some {A : List Str} {repos repos' : List (Str × Json N)}
    (h : overrideAbsent A repos = some repos') (n : Str) :
    (assoc n repos = none ∧ assoc n repos' = none) ∨
    ∃ l l', assoc n repos = some (.obj l) ∧ assoc n repos' = some (.obj l') ∧ setAbsent A n l = some l' := by
  induction repos generalizing repos' with
  | nil => cases h; exact Or.inl ⟨rfl, rfl⟩
  | cons e t ih =>
    obtain ⟨x, v⟩ := e
    cases v <;> try (simp only [overrideAbsent] at h; cases h)
    rename_i l
    simp only [overrideAbsent] at h
    split at h
    · rename_i l' t' h1 h2
      cases h
      simp only [assoc]
      by_cases hx : n = x
      · rw [if_pos hx, if_pos hx]
        exact Or.inr ⟨l, l', rfl, rfl, hx ▸ h1⟩
      · rw [if_neg hx, if_neg hx]
        exact ih h2
    · cases h

variable {A : List Str} {repos repos' : List (Str × Json N)}

/-- **C97** (for repositories with an explicit description of the workspace root).  Given a list of absent
repositories, a repository is marked absent if and only if it is in the list, whatever its pragma says, and
nothing else changes: not the other pragmas, not the other fields of the description of the workspace root,
and not the other fields of the repository. -/
theorem C97_explicit_partial (hs : Sorted repos) (h : overrideAbsent A repos = some repos') {n : Str}
    {r : List (Str × Json N)} (hn : Has repos n "repository".toList (.obj r)) :
    ∃ r', Has repos' n "repository".toList (.obj r') ∧ AbsentSet (decide (n ∈ A)) r r' ∧
      ∀ k, k ≠ "repository".toList → ∀ v, Has repos' n k v ↔ Has repos n k v := by
  obtain ⟨_, l, hl, hlr⟩ := hn
  rcases overrideAbsent_some h n with ⟨e, _⟩ | ⟨l1, l', e1, e2, e3⟩
  · rw [hl] at e; cases e
  rw [hl] at e1; cases e1
  obtain ⟨hal, har⟩ := hs.2 n l hl
  obtain ⟨s1, s2, _⟩ := setAbsent_some hal har e3
  obtain ⟨r', hr', hset⟩ := s2 r (Or.inl hlr)
  refine ⟨r', (has_iff (by simp)).mpr ⟨l', e2, hr'⟩, hset, fun k hk v => ?_⟩
  by_cases hv : v = .null
  · simp only [Has, hv, ne_eq, not_true_eq_false, false_and]
  · rw [has_iff hv, has_iff hv]
    constructor
    · rintro ⟨l2, g1, g2⟩
      rw [e2] at g1; cases g1
      exact ⟨l, hl, by rw [← s1 k hk]; exact g2⟩
    · rintro ⟨l2, g1, g2⟩
      rw [hl] at g1; cases g1
      exact ⟨l', e2, by rw [s1 k hk]; exact g2⟩

/-- **C97.**  Repositories that are aliases stay as they are, and so do the names of the repositories. -/
theorem C97_alias (hs : Sorted repos) (h : overrideAbsent A repos = some repos') (n : Str) :
    (∀ b, Alias repos' n b ↔ Alias repos n b) ∧
    ((∃ j, assoc n repos' = some j) ↔ ∃ j, assoc n repos = some j) ∧
    ((∃ b, Alias repos n b) → assoc n repos' = assoc n repos) := by
  rcases overrideAbsent_some h n with ⟨e, e'⟩ | ⟨l, l', e1, e2, e3⟩
  · refine ⟨fun b => ?_, by rw [e, e'], fun _ => by rw [e, e']⟩
    simp only [Alias, Has, e, e']
  · obtain ⟨hal, har⟩ := hs.2 n l e1
    obtain ⟨s1, s2, s3⟩ := setAbsent_some hal har e3
    have hali : ∀ b, Alias repos n b → l' = l := by
      rintro b ⟨_, l2, g1, g2⟩
      rw [e1] at g1; cases g1
      exact s3 _ g2 (fun r e => nomatch e)
    refine ⟨fun b => ⟨fun hb => ?_, fun hb => ?_⟩, ⟨fun _ => ⟨_, e1⟩, fun _ => ⟨_, e2⟩⟩, ?_⟩
    · obtain ⟨_, l2, g1, g2⟩ := hb
      rw [e2] at g1; cases g1
      cases hrep : assoc "repository".toList l with
      | none =>
        obtain ⟨r', hr', _⟩ := s2 [] (Or.inr ⟨hrep, rfl⟩)
        rw [field_of_assoc g2] at hr'; cases hr'
      | some v =>
        by_cases hv : ∃ r, v = .obj r
        · obtain ⟨r, rfl⟩ := hv
          obtain ⟨r', hr', _⟩ := s2 r (Or.inl hrep)
          rw [field_of_assoc g2] at hr'; cases hr'
        · have := s3 v hrep (fun r e => hv ⟨r, e⟩)
          subst this
          exact ⟨by simp, l', e1, g2⟩
    · have := hali b hb
      subst this
      obtain ⟨_, l2, g1, g2⟩ := hb
      rw [e1] at g1; cases g1
      exact ⟨by simp, l', e2, g2⟩
    · rintro ⟨b, hb⟩
      rw [e1, e2, hali b hb]

/-- **C97.**  Well-formed descriptions are accepted. -/
theorem C97_total (hw : WellFormed repos) (hnd : (repos.map Prod.fst).Nodup) :
    ∃ repos', overrideAbsent A repos = some repos' := by
  induction repos with
  | nil => exact ⟨_, rfl⟩
  | cons e t ih =>
    obtain ⟨n, j⟩ := e
    simp only [List.map_cons, List.nodup_cons] at hnd
    obtain ⟨l, rfl, hl⟩ := hw n j (by simp only [assoc, if_true])
    obtain ⟨t', ht'⟩ := ih (fun x j hx => hw x j (by
      have : x ≠ n := by
        rintro rfl
        exact hnd.1 (List.mem_map.mpr ⟨_, assoc_some_mem hx, rfl⟩)
      simp only [assoc, if_neg this]; exact hx)) hnd.2
    obtain ⟨l', hl'⟩ : ∃ l', setAbsent A n l = some l' := by
      unfold setAbsent
      simp only
      cases hrep : assoc "repository".toList l with
      | none => exact ⟨_, rfl⟩
      | some v =>
        cases v with
        | obj ws =>
          simp only
          rcases hl ws (field_of_assoc hrep) with hp | ⟨p, hp⟩
          · cases hpa : assoc "pragma".toList ws with
            | none => exact ⟨_, rfl⟩
            | some q => rw [field_of_assoc hpa] at hp; subst hp; exact ⟨_, rfl⟩
          · cases hpa : assoc "pragma".toList ws with
            | none => rw [field_none hpa] at hp; cases hp
            | some q => rw [field_of_assoc hpa] at hp; subst hp; exact ⟨_, rfl⟩
        | _ => exact ⟨_, rfl⟩
    exact ⟨_, by simp only [overrideAbsent, hl', ht']; rfl⟩

end

/-! ## Examples and violations -/

/-- A computed root, marked absent or not, and an alias of it. -/
def absentConfig (mark : Bool) : List (Str × Json Unit) :=
  [("a".toList, .obj [("repository".toList, .obj
      [("pragma".toList, .obj [("absent".toList, .bool mark)]),
       ("repo".toList, .str "b".toList),
       ("target".toList, .arr [.str "".toList, .str "".toList]),
       ("type".toList, .str "computed".toList)])]),
   ("b".toList, .obj [("repository".toList, .obj
      [("path".toList, .str ".".toList), ("type".toList, .str "file".toList)])]),
   ("c".toList, .obj [("repository".toList, .str "a".toList)])]

/-- The roots `just` sees, when the list of absent repositories is given. -/
def rootsAbsent (env : Env Unit) (A : List String) (repos : List (Str × Json Unit)) (main n : String) :
    List (List String) :=
  match overrideAbsent (A.map String.toList) repos with
  | none => []
  | some repos' =>
    match generate env ⟨some main.toList, false, false⟩ [("repositories".toList, .obj repos')] with
    | .ok out => rootsRead n (justRead (fun _ _ => true) plainArgs out)
    | _ => []

/-- The hypotheses can be met; a repository in the list is absent, one that is not is not. -/
example : rootsAbsent exampleEnv ["a"] (absentConfig false) "a" "a" =
      [["computed", "b", "", "", "true"], ["computed", "b", "", "", "true"]] ∧
    rootsAbsent exampleEnv [] (absentConfig true) "a" "a" =
      [["computed", "b", "", "", "false"], ["computed", "b", "", "", "false"]] := by
  decide +kernel

example : Sorted (absentConfig true) ∧ WellFormed (absentConfig true) := by
  have hfind : ∀ n j, assoc n (absentConfig true) = some j → (n, j) ∈ absentConfig true :=
    fun n j h => assoc_some_mem h
  have key : ∀ e ∈ absentConfig true, ∃ l, e.2 = .obj l ∧ Ascending l ∧
      ∀ r, field "repository".toList l = .obj r → Ascending r ∧
        (field "pragma".toList r = .null ∨ ∃ p, field "pragma".toList r = .obj p ∧ Ascending p) := by
    intro e he
    simp only [absentConfig, List.mem_cons, List.not_mem_nil, or_false] at he
    rcases he with rfl | rfl | rfl
    · exact ⟨_, rfl, by simp only [Ascending]; decide, fun r hr => by
        cases hr; exact ⟨by simp only [Ascending]; decide,
          Or.inr ⟨_, rfl, by simp only [Ascending]; decide⟩⟩⟩
    · exact ⟨_, rfl, by simp only [Ascending]; decide, fun r hr => by
        cases hr; exact ⟨by simp only [Ascending]; decide, Or.inl rfl⟩⟩
    · exact ⟨_, rfl, by simp only [Ascending]; decide, fun r hr => by cases hr⟩
  refine ⟨⟨by simp only [Ascending]; decide, fun n l h => ?_⟩, fun n j h => ?_⟩
  · obtain ⟨l', e, ha, hr⟩ := key _ (hfind n _ h)
    cases e
    refine ⟨ha, fun r h' => ⟨(hr r h').1, fun p hp => ?_⟩⟩
    rcases (hr r h').2 with h2 | ⟨p', h2, h3⟩
    · rw [h2] at hp; cases hp
    · rw [h2] at hp; cases hp; exact h3
  · obtain ⟨l', e, ha, hr⟩ := key _ (hfind n j h)
    refine ⟨l', e, fun r h' => ?_⟩
    rcases (hr r h').2 with h2 | ⟨p', h2, h3⟩
    · exact Or.inl h2
    · exact Or.inr ⟨p', h2⟩

/-- **Violation of C97.**  The list is said to contain the "repository names to be considered absent"
(share/man/just-mr.1.md:56-60), but for a repository that is an alias, only the name of the repository with
the explicit description counts: "c" is in the list and not absent, or is not in the list and absent. -/
theorem C97_violation_alias :
    rootsAbsent exampleEnv ["c"] (absentConfig false) "c" "c" =
      [["computed", "b", "", "", "false"], ["computed", "b", "", "", "false"]] ∧
    rootsAbsent exampleEnv ["a"] (absentConfig false) "c" "c" =
      [["computed", "b", "", "", "true"], ["computed", "b", "", "", "true"]] := by
  decide +kernel

/-- **Violation of C97.**  With `--fetch-absent` just-mr is to "make available all repositories, including
those marked as absent" (share/man/just-mr.1.md:173-174); a computed root marked as absent stays absent
(src/other_tools/repo_map/repos_to_setup_map.cpp:677-696, which does not look at the option). -/
theorem C97_violation_fetch_absent :
    rootsAbsent { exampleEnv with fetchAbsent := true } ["a"] (absentConfig true) "a" "a" =
      [["computed", "b", "", "", "true"], ["computed", "b", "", "", "true"]] := by
  decide +kernel

/-- **Violation of C97.**  "For all workspace roots the pragma key absent is supported", such that "an absent
root should be generated" (share/man/just-mr-repository-config.5.md:231-233); a directory that is marked as
absent, by the pragma or by the list, is used as it is. -/
theorem C97_violation_file :
    rootsAbsent exampleEnv ["b"] (absentConfig true) "b" "b" =
      [["dir", "/home/.", "false"], ["dir", "/home/.", "false"]] := by
  decide +kernel

end Verif.MrConfig
