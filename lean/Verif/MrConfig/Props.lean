import Verif.MrConfig.Entries

/-!
# C95: the configuration generated by just-mr contains the repositories needed, and is closed
-/

namespace Verif.MrConfig

open Verif

section
variable {N : Type} {env : Env N} {args : Args} {config repos : List (Str × Json N)} {out : Json N} {m : Str}

/-- **C95.**  The configuration written has an entry exactly for the repositories needed for building in the
main repository: those bound, directly or indirectly, and those from which the roots of these repositories
and of their layers have to be computed.  Repositories that merely serve as a layer have none, and nothing
else is included. -/
theorem C95_exact (hr : field "repositories".toList config = .obj repos) (hm : MainIs args config repos m)
    (hall : args.all = false) (h : generate env args config = .ok out) (n : Str) :
    (∃ c, Entry out n c) ↔ Needed repos m n := by
  obtain ⟨given, inv, es, _, h2, h3, rfl⟩ := generate_ok hr hm h
  obtain ⟨i1, i2⟩ := involved_ok hall h2
  constructor
  · rintro ⟨c, hc⟩
    exact (i1 n).mp (entry_include h3 hc)
  · intro hn
    obtain ⟨c, _, hc, _⟩ := entry_of (given := given) h3 (fun x hx => (i2 x).mpr (Or.inl ((i1 x).mp hx)))
      ((i1 n).mpr hn)
    exact ⟨_, hc⟩

/-- **C95.**  If all repositories are asked for, there is an entry for each of them. -/
theorem C95_all (hr : field "repositories".toList config = .obj repos) (hm : MainIs args config repos m)
    (hall : args.all = true) (h : generate env args config = .ok out) (n : Str) :
    (∃ c, Entry out n c) ↔ n ∈ repos.map Prod.fst := by
  obtain ⟨given, inv, es, _, h2, h3, rfl⟩ := generate_ok hr hm h
  obtain ⟨i1, i2⟩ := involved_all hall h2
  constructor
  · rintro ⟨c, hc⟩
    exact i1 ▸ entry_include h3 hc
  · intro hn
    obtain ⟨c, _, hc, _⟩ := entry_of (given := given) h3 (fun x hx => by rw [i2, ← i1]; exact hx)
      (by rw [i1]; exact hn)
    exact ⟨_, hc⟩

/-- **C95.**  The entry of a repository (other than a main repository that is left to the user): its
workspace root is the one for its description; the bindings and the names of the files are taken over as they
are; every layer is the workspace root for the description of the repository named; and there is nothing
else.  (That the root is the one meant by the description is C96.) -/
theorem C95_entry (hr : field "repositories".toList config = .obj repos) (hm : MainIs args config repos m)
    (hall : args.all = false) (h : generate env args config = .ok out) {n : Str}
    {c : List (Str × Json N)} (hc : Entry out n c) (hn : args.interactive = false ∨ n ≠ m) :
    (∃ d root, Describes repos n d ∧ RootGiven env n d root ∧
      assoc "workspace_root".toList c = some root) ∧
    (∀ k v, k = "bindings".toList ∨ k = "target_file_name".toList ∨ k = "rule_file_name".toList ∨
      k = "expression_file_name".toList → (assoc k c = some v ↔ Has repos n k v)) ∧
    (∀ k b, Layer repos n k b → args.interactive = false ∨ b ≠ m →
      ∃ d root, Describes repos b d ∧ RootGiven env b d root ∧ assoc k c = some root) ∧
    (∀ k v, assoc k c = some v → k = "workspace_root".toList ∨ (∃ b, Layer repos n k b) ∨
      k = "bindings".toList ∨ k = "target_file_name".toList ∨ k = "rule_file_name".toList ∨
      k = "expression_file_name".toList) := by
  obtain ⟨given, inv, es, _, h2, h3, rfl⟩ := generate_ok hr hm h
  obtain ⟨i1, i2⟩ := involved_ok hall h2
  have hni := entry_include h3 hc
  have hnn := (i1 n).mp hni
  obtain ⟨c', c0, hc', hs, hcase⟩ := entry_of (given := given) h3
    (fun x hx => (i2 x).mpr (Or.inl ((i1 x).mp hx))) hni
  rw [entry_unique hc hc'] at *
  have hskip : ∀ b, args.interactive = false ∨ b ≠ m →
      (if args.interactive = true then some m else none) ≠ some b := by
    rintro b (hb | hb)
    · rw [hb]; simp
    · split
      · intro e; exact hb (Option.some.inj e).symm
      · simp
  rcases hcase with ⟨e, _⟩ | ⟨_, l, hl, hadd⟩
  · exact absurd e (hskip n hn)
  obtain ⟨l', d, root, hl', hd, hroot, rfl⟩ := setupRepo_given (hskip n hn) hs
  rw [hl] at hl'; cases hl'
  obtain ⟨a1, a2⟩ := addLayers_find altDirs_nodup hadd
  have htake : ∀ k, (k = "bindings".toList ∨ k = "target_file_name".toList ∨ k = "rule_file_name".toList ∨
      k = "expression_file_name".toList) ↔ k ∈ takeOverKeys := by
    intro k; simp only [takeOverKeys, List.mem_cons, List.not_mem_nil, or_false]
  refine ⟨⟨d, root, hd, hroot, ?_⟩, fun k v hk => ?_, fun k b hb hbi => ?_, fun k v hk => ?_⟩
  · have := a1 _ ws_not_alt
    rw [base_find, if_pos rfl] at this
    exact this
  · have hk' := (htake k).mp hk
    have := a1 k (fun ha => alt_not_taken k ha hk')
    rw [base_find, if_neg (fun e : k = "workspace_root".toList => ws_not_taken (e ▸ hk')), if_pos hk'] at this
    rw [← taken_iff hl, ← this]
    exact Iff.rfl
  · obtain ⟨hbk, _, l', e1, e2⟩ := hb
    rw [hl] at e1; cases e1
    have hba : k ∈ altDirs := mem_altDirs.mpr hbk
    have hset : b ∈ inv.toSetup := (i2 b).mpr (Or.inr ⟨n, k, hnn, hbk, (fun e => nomatch e), l, hl, e2⟩)
    rcases a2 k hba with ⟨e, _⟩ | ⟨v, e, hv⟩
    · rw [field_str.mpr e2] at e; cases e
    · rw [field_str.mpr e2] at e; cases e
      rw [if_neg (hskip b hbi)] at hv
      obtain ⟨_, g2, g3, _⟩ := populate_some h3
      obtain ⟨cb, hcb⟩ := g3 b hset
      obtain ⟨lb, db, rootb, _, hdb, hrb, rfl⟩ := setupRepo_given (hskip b hbi) hcb
      refine ⟨db, rootb, hdb, hrb, ?_⟩
      simp only [if_pos hset, hcb, rootIn, base_find, if_true, Option.getD_some] at hv
      exact hv
  · by_cases hw : k = "workspace_root".toList
    · exact Or.inl hw
    · right
      by_cases ha : k ∈ altDirs
      · left
        rcases a2 k ha with ⟨_, e⟩ | ⟨b, e, _⟩
        · rw [base_find, if_neg hw, if_neg (alt_not_taken k ha)] at e
          rw [show assoc k c'.items = c'.find k from rfl, e] at hk
          cases hk
        · exact ⟨b, mem_altDirs.mp ha, (fun e => nomatch e), l, hl, field_str.mp e⟩
      · right
        have := a1 k ha
        rw [base_find, if_neg hw] at this
        by_cases ht : k ∈ takeOverKeys
        · exact (htake k).mpr ht
        · rw [if_neg ht] at this
          rw [show assoc k c'.items = c'.find k from rfl, this] at hk
          cases hk

/-- **C95.**  The entry of a main repository that is left to the user has no roots; the bindings and the
names of the files are taken over. -/
theorem C95_interactive (hr : field "repositories".toList config = .obj repos)
    (hm : MainIs args config repos m) (hall : args.all = false) (hi : args.interactive = true)
    (h : generate env args config = .ok out) {c : List (Str × Json N)} (hc : Entry out m c) (k : Str)
    (v : Json N) :
    assoc k c = some v ↔ (k = "bindings".toList ∨ k = "target_file_name".toList ∨
      k = "rule_file_name".toList ∨ k = "expression_file_name".toList) ∧ Has repos m k v := by
  obtain ⟨given, inv, es, _, h2, h3, rfl⟩ := generate_ok hr hm h
  obtain ⟨i1, i2⟩ := involved_ok hall h2
  have hni := entry_include h3 hc
  obtain ⟨c', c0, hc', hs, hcase⟩ := entry_of (given := given) h3
    (fun x hx => (i2 x).mpr (Or.inl ((i1 x).mp hx))) hni
  rw [entry_unique hc hc'] at *
  rw [if_pos hi] at hs hcase
  have htake : ∀ k, (k = "bindings".toList ∨ k = "target_file_name".toList ∨ k = "rule_file_name".toList ∨
      k = "expression_file_name".toList) ↔ k ∈ takeOverKeys := by
    intro k; simp only [takeOverKeys, List.mem_cons, List.not_mem_nil, or_false]
  rcases hcase with ⟨_, rfl⟩ | ⟨hne, _⟩
  · rw [htake]
    show c'.find k = some v ↔ _
    rcases setupRepo_skip hs with ⟨hn, rfl⟩ | ⟨l, hl, rfl⟩
    · rw [find_empty]
      constructor
      · intro e; cases e
      · rintro ⟨_, _, l, e, _⟩
        rcases hn with hn | hn <;> · rw [hn] at e; cases e
    · rw [skip_find, ← taken_iff hl]
      by_cases ht : k ∈ takeOverKeys
      · rw [if_pos ht]; exact ⟨fun e => ⟨ht, e⟩, fun e => e.2⟩
      · rw [if_neg ht]
        constructor
        · intro e; cases e
        · rintro ⟨e, _⟩; exact absurd e ht
  · exact absurd rfl hne

/-- The roots obtained are not roots to be computed. -/
def FetchesPlain (env : Env N) : Prop :=
  ∀ n d root, env.fetch n d = some root → ∀ rest,
    root ≠ .arr (.str "computed".toList :: rest) ∧ root ≠ .arr (.str "tree structure".toList :: rest)

theorem rootGiven_refers (hf : FetchesPlain env) {n : Str} {d root : Json N} {t b : Str}
    {rest : List (Json N)} (h : RootGiven env n d root)
    (ht : t = "computed".toList ∨ t = "tree structure".toList)
    (he : root = .arr (.str t :: .str b :: rest)) : RefersTo d b := by
  have hno : ∀ n d root', env.fetch n d = some root' → root' ≠ root := by
    intro n d root' hr e
    rw [e, he] at hr
    rcases ht with rfl | rfl
    · exact (hf _ _ _ hr _).1 rfl
    · exact (hf _ _ _ hr _).2 rfl
  have hfile : ∀ x rest', (x = "file".toList ∨ x = "file ignore-special".toList) →
      Json.arr (.str x :: rest') ≠ root := by
    rintro x rest' hx e
    rw [he] at e
    simp only [Json.arr.injEq, List.cons.injEq, Json.str.injEq] at e
    obtain ⟨rfl, _⟩ := e
    rcases hx with rfl | rfl <;> revert ht <;> decide
  rcases h with h | ⟨repo, m, t', c, a, h, _, e⟩
  · cases h with
    | fetched _ _ h => exact absurd rfl (hno _ _ _ h)
    | imported _ _ h => exact absurd rfl (hno _ _ _ h)
    | dir _ _ _ _ => exact absurd rfl (hfile _ _ (Or.inl rfl))
    | dirIgnore _ _ _ _ => exact absurd rfl (hfile _ _ (Or.inr rfl))
    | computed h =>
      simp only [List.cons_append, Json.arr.injEq, List.cons.injEq, Json.str.injEq] at he
      exact Or.inl ⟨_, _, _, _, he.2.1 ▸ h⟩
    | tree h =>
      simp only [List.cons_append, Json.arr.injEq, List.cons.injEq, Json.str.injEq] at he
      exact Or.inr ⟨_, he.2.1 ▸ h⟩
  · rw [e] at he
    simp only [List.cons_append, Json.arr.injEq, List.cons.injEq, Json.str.injEq] at he
    exact Or.inl ⟨_, _, _, _, he.2.1 ▸ h⟩

/-- **C95.**  The configuration is closed: every repository bound by an entry, and every repository from which
one of the roots of an entry has to be computed, has an entry itself. -/
theorem C95_closed (hf : FetchesPlain env) (hr : field "repositories".toList config = .obj repos)
    (hm : MainIs args config repos m) (hall : args.all = false) (h : generate env args config = .ok out)
    {n : Str} {c : List (Str × Json N)} (hc : Entry out n c) :
    (∀ bs x b, assoc "bindings".toList c = some (.obj bs) → (x, Json.str b) ∈ bs → ∃ c', Entry out b c') ∧
    ∀ k t b rest, k = "workspace_root".toList ∨ k = "target_root".toList ∨ k = "rule_root".toList ∨
      k = "expression_root".toList → t = "computed".toList ∨ t = "tree structure".toList →
      assoc k c = some (.arr (.str t :: .str b :: rest)) → ∃ c', Entry out b c' := by
  have hneed := (C95_exact hr hm hall h n).mp ⟨c, hc⟩
  by_cases hn : args.interactive = false ∨ n ≠ m
  · obtain ⟨e1, e2, e3, e4⟩ := C95_entry hr hm hall h hc hn
    constructor
    · intro bs x b hb hx
      exact (C95_exact hr hm hall h b).mpr
        (.binds hneed ⟨bs, x, (e2 _ _ (Or.inl rfl)).mp hb, hx⟩)
    · intro k t b rest hk ht hroot
      rw [C95_exact hr hm hall h b]
      rcases hk with rfl | hk
      · obtain ⟨d, root, hd, hg, ha⟩ := e1
        rw [ha] at hroot
        exact .root hneed ⟨d, hd, rootGiven_refers hf hg ht (Option.some.inj hroot)⟩
      · rcases e4 k _ hroot with rfl | ⟨b', hb'⟩ | hk'
        · exact absurd hk (by decide)
        · by_cases hbm : args.interactive = false ∨ b' ≠ m
          · obtain ⟨d, root, hd, hg, ha⟩ := e3 k b' hb' hbm
            rw [ha] at hroot
            exact .layer hneed hb' ⟨d, hd, rootGiven_refers hf hg ht (Option.some.inj hroot)⟩
          · -- a layer that is the main repository left to the user is not written
            exfalso
            have hi : args.interactive = true := by
              cases hi : args.interactive with
              | true => rfl
              | false => exact absurd (Or.inl hi) hbm
            have hb : b' = m := by by_contra hb; exact hbm (Or.inr hb)
            subst hb
            obtain ⟨given, inv, es, _, h2, h3, rfl⟩ := generate_ok hr hm h
            obtain ⟨i1, i2⟩ := involved_ok hall h2
            obtain ⟨c', c0, hc', hs, hcase⟩ := entry_of (given := given) h3
              (fun x hx => (i2 x).mpr (Or.inl ((i1 x).mp hx))) (entry_include h3 hc)
            rw [entry_unique hc hc'] at hroot
            rw [if_pos hi] at hs hcase
            have hnb : (some b' : Option Str) ≠ some n := by
              intro e
              rcases hn with hn | hn
              · rw [hi] at hn; cases hn
              · exact hn (Option.some.inj e).symm
            rcases hcase with ⟨e, _⟩ | ⟨_, l, hl, hadd⟩
            · exact hnb e
            · obtain ⟨_, a2⟩ := addLayers_find altDirs_nodup hadd
              obtain ⟨l', _, _, hl', _, _, rfl⟩ := setupRepo_given hnb hs
              obtain ⟨_, _, l2, q1, q2⟩ := hb'
              rw [hl] at q1; cases q1
              have hka := mem_altDirs.mpr hk
              rcases a2 k hka with ⟨e, _⟩ | ⟨v, e, hv⟩
              · rw [field_str.mpr q2] at e; cases e
              · rw [field_str.mpr q2] at e; cases e
                rw [if_pos rfl, base_find, if_neg (fun e : k = "workspace_root".toList => ws_not_alt (e ▸ hka)),
                  if_neg (alt_not_taken k hka)] at hv
                rw [show assoc k c'.items = c'.find k from rfl, hv] at hroot
                cases hroot
        · exfalso; revert hk hk'
          rintro (rfl | rfl | rfl) <;> decide
  · have hi : args.interactive = true := by
      cases hi : args.interactive with
      | true => rfl
      | false => exact absurd (Or.inl hi) hn
    have hnm : n = m := by by_contra hb; exact hn (Or.inr hb)
    subst hnm
    have e := C95_interactive hr hm hall hi h hc
    constructor
    · intro bs x b hb hx
      exact (C95_exact hr hm hall h b).mpr (.binds hneed ⟨bs, x, ((e _ _).mp hb).2, hx⟩)
    · intro k t b rest hk ht hroot
      have := ((e _ _).mp hroot).1
      exfalso; revert hk this
      rintro (rfl | rfl | rfl | rfl) <;> decide

/-- **C95.**  just-mr ends, unless a repository needed, or the layer of one, is the start of a cyclic chain of
aliases. -/
theorem C95_ends_partial (hr : field "repositories".toList config = .obj repos)
    (hm : MainIs args config repos m)
    (hg : ∀ n c, Needed repos m n → c = n ∨ (∃ k, Layer repos n k c) → Grounded repos c) :
    generate env args config ≠ .hang := by
  intro h
  unfold generate at h
  simp only [hr] at h
  split at h
  · cases h
  · rename_i given hgv
    rw [(theMain_iff hgv m).mpr hm] at h
    rcases Out.bind_hang.mp h with h | ⟨inv, _, h⟩
    · cases hall : args.all with
      | true => simp only [involved, hall, if_true] at h; cases h
      | false =>
        simp only [involved, hall, Bool.false_eq_true, if_false] at h
        obtain ⟨n, c, h1, h2, h3⟩ := reachable_hang h
        exact h3 (hg n c h1 h2)
    · split at h <;> cases h

end

/-! ## Examples -/

/-- An environment in which everything can be obtained. -/
def exampleEnv : Env Unit where
  fetch _ _ := some (.arr [.str "git tree".toList, .str "4b825d".toList, .str "/cache".toList])
  absPath p := "/home/".toList ++ p
  fetchAbsent := false

/-- A description with bindings, a layer, an alias, a computed root and a repository that is not needed. -/
def exampleConfig : List (Str × Json Unit) :=
  [("main".toList, .str "app".toList),
   ("repositories".toList, .obj
     [("app".toList, .obj
       [("bindings".toList, .obj [("lib".toList, .str "lib".toList), ("gen".toList, .str "gen".toList)]),
        ("repository".toList, .obj [("path".toList, .str "src".toList), ("type".toList, .str "file".toList)]),
        ("target_root".toList, .str "files".toList)]),
      ("files".toList, .obj
       [("repository".toList, .obj [("path".toList, .str "files".toList),
         ("type".toList, .str "file".toList)])]),
      ("gen".toList, .obj
       [("repository".toList, .obj
         [("repo".toList, .str "tool".toList),
          ("target".toList, .arr [.str "".toList, .str "".toList]),
          ("type".toList, .str "computed".toList)])]),
      ("lib".toList, .obj [("repository".toList, .str "src".toList)]),
      ("other".toList, .obj [("repository".toList, .str "src".toList)]),
      ("src".toList, .obj
       [("repository".toList, .obj [("type".toList, .str "git".toList)])]),
      ("tool".toList, .obj
       [("repository".toList, .obj [("path".toList, .str "tool".toList),
         ("type".toList, .str "file".toList)])])])]

/-- The names of the repositories in a configuration. -/
def entryNames : Out (Json Unit) → List String
  | .ok (.obj top) =>
    match field "repositories".toList top with
    | .obj rs => rs.map fun e => String.ofList e.1
    | _ => []
  | _ => []

/-- The keys of the entry of a repository. -/
def entryKeys (n : String) : Out (Json Unit) → List String
  | .ok (.obj top) =>
    match field "repositories".toList top with
    | .obj rs =>
      match assoc n.toList rs with
      | some (.obj c) => c.map fun e => String.ofList e.1
      | _ => []
    | _ => []
  | _ => []

/-- The hypotheses of the theorems can be met: the layer "files", the alias "src" and the repository "other"
are not included; the repository "tool" is. -/
example : entryNames (generate exampleEnv ⟨none, false, false⟩ exampleConfig) = ["app", "gen", "lib", "tool"] ∧
    entryKeys "app" (generate exampleEnv ⟨none, false, false⟩ exampleConfig) =
      ["bindings", "target_root", "workspace_root"] ∧
    entryKeys "app" (generate exampleEnv ⟨none, false, true⟩ exampleConfig) = ["bindings"] ∧
    entryNames (generate exampleEnv ⟨none, true, false⟩ exampleConfig) =
      ["app", "files", "gen", "lib", "other", "src", "tool"] := by
  decide +kernel

example : FetchesPlain exampleEnv := by
  intro n d root h rest
  cases h
  constructor <;> intro e <;>
    · simp only [Json.arr.injEq, List.cons.injEq, Json.str.injEq] at e
      exact absurd e.1 (by decide)

example : MainIs ⟨none, false, false⟩ exampleConfig [] "app".toList :=
  Or.inr (Or.inl ⟨rfl, rfl⟩)

/-! ## Violations -/

/-- A repository that is an alias of itself. -/
def cyclicConfig : List (Str × Json Unit) :=
  [("repositories".toList, .obj [("a".toList, .obj [("repository".toList, .str "a".toList)])])]

/-- **Violation of C95.**  A repository described as an alias of itself makes just-mr loop forever instead of
failing with an error: the cycle is found when the description of a repository is resolved
(src/other_tools/just_mr/utils.cpp:24-69), but the search for the repository a precomputed root refers to,
which comes first, follows aliases without remembering where it has been
(src/other_tools/just_mr/setup_utils.cpp:61-81). -/
theorem C95_violation_alias_cycle :
    ∃ config : List (Str × Json Unit), ∀ env, generate env ⟨none, false, false⟩ config = .hang :=
  ⟨cyclicConfig, fun _ => rfl⟩

/-- Set up in full, the same description is an error. -/
theorem C95_alias_cycle_all (env : Env Unit) : generate env ⟨none, true, false⟩ cyclicConfig = .fail := by
  rfl

/-- **Violation of C95.**  When all repositories are asked for, a layer that names a repository that does not
exist is not an error: the layer is written as `null`. -/
theorem C95_violation_layer :
    ∃ config : List (Str × Json Unit), ∀ env, generate env ⟨none, true, false⟩ config =
      .ok (.obj [("repositories".toList, .obj [("a".toList, .obj
        [("target_root".toList, .null),
         ("workspace_root".toList, .arr [.str "file".toList, .str (env.absPath ['.'])])])])]) :=
  ⟨[("repositories".toList, .obj [("a".toList, .obj
      [("repository".toList, .obj [("path".toList, .str ".".toList), ("type".toList, .str "file".toList)]),
       ("target_root".toList, .str "b".toList)])])], fun _ => rfl⟩

end Verif.MrConfig
