import Verif.Serve.RootsLemmas

/-!
# C100: the serve endpoint works with the repositories the client described
-/

namespace Verif.Serve

open Verif Verif.MrConfig Verif.Repo

/-! ## Following names -/

theorem obs_follow {D : Str → Option (Content × List (Str × Str))} : ∀ {w : List Str} {n m : Str} (v : List Str),
    follow D w n = some m → obs D (w ++ v) n = obs D v m
  | [], n, m, v, h => by cases h; rfl
  | l :: w, n, m, v, h => by
    rw [follow] at h
    rw [List.cons_append, obs]
    split at h
    · rename_i c bs hd
      split at h
      · rename_i t ht
        simp only [hd, ht]
        exact obs_follow v h
      · cases h
    · cases h

theorem assoc_keys {bs bs' : List (Str × Str)} (h : bs.map Prod.fst = bs'.map Prod.fst) {l t : Str}
    (ht : assoc l bs = some t) : ∃ t', assoc l bs' = some t' := by
  cases h' : assoc l bs' with
  | some t' => exact ⟨t', rfl⟩
  | none =>
    have hm := assoc_some_mem ht
    have : l ∈ bs'.map Prod.fst := h ▸ List.mem_map.2 ⟨_, hm, rfl⟩
    obtain ⟨p, hp, rfl⟩ := List.mem_map.1 this
    exact absurd hp (assoc_eq_none_iff.1 h' p.2)

/-- Who can follow names in one configuration can do so in one that looks the same. -/
theorem follow_same {D D' : Str → Option (Content × List (Str × Str))} : ∀ {w : List Str} {n m n' : Str},
    (∀ v, obs D v n = obs D' v n') → follow D w n = some m → ∃ m', follow D' w n' = some m' ∧
      ∀ v, obs D v m = obs D' v m'
  | [], n, m, n', hs, h => by cases h; exact ⟨n', rfl, hs⟩
  | l :: w, n, m, n', hs, h => by
    rw [follow] at h
    split at h
    · rename_i c bs hd
      split at h
      · rename_i t ht
        have h0 := hs []
        rw [obs, obs, hd] at h0
        cases hd' : D' n' with
        | none => rw [hd'] at h0; simp at h0
        | some d' =>
          obtain ⟨c', bs'⟩ := d'
          rw [hd'] at h0
          simp only [Option.some.injEq, RepoObs.fixed.injEq] at h0
          obtain ⟨t', ht'⟩ := assoc_keys h0.2 ht
          have hs' : ∀ v, obs D v t = obs D' v t' := fun v => by
            have := hs (l :: v)
            rw [obs, obs, hd, hd'] at this
            simpa only [ht, ht'] using this
          obtain ⟨m', h1, h2⟩ := follow_same hs' h
          exact ⟨m', by rw [follow, hd']; simp only [ht']; exact h1, h2⟩
      · cases h
    · cases h

/-! ## What is read -/

/-- What the text describes, and where it comes from. -/
theorem graph_spec {plain : Str → Str} {C : Config} {R : List (Str × Str)} (h : Setup plain C R) {repo t : Str}
    (ht : storedText C R repo = some t) {j : Json Empty} (hj : Json.dump Empty.elim (Json.pretty 2) 0 j = t) :
    ∃ g : Graph, addRepo (data C) (representative R) (C.length + 1) (representative R repo) ⟨[], 0, []⟩ = .ok (decimal 0) g ∧
      j = .obj (g.graph.map fun p => (p.1, descJson p.2)) ∧ Ascending g.graph ∧
      (∀ w, obs (data C) w repo ≠ some .unfixed) ∧
      (∀ w, obs (data C) w repo = obs (fun i => assoc i g.graph) w (decimal 0)) ∧
      ∀ k d, assoc k g.graph = some d → (∃ w l, obs (data C) w repo = some (.fixed d.1 l)) ∧ Ascending d.2 ∧
        ∀ p ∈ d.2, p.2 ∈ g.graph.map Prod.fst := by
  rcases key_spec h repo with ⟨_, e⟩ | ⟨g, hg, e, hf, ho⟩
  · rw [e] at ht; exact nomatch ht
  rw [e] at ht
  refine ⟨g, hg, ?_, (addRepo_built _ _ ⟨[], 0, []⟩ _ _ List.Pairwise.nil hg).1.asc, hf, ho, fun k d hk => ?_⟩
  · have := hj.trans (Option.some.inj ht).symm
    exact Json.dump_inj noNum (Json.pretty_ok 2) this
  · have hb := (addRepo_built _ _ ⟨[], 0, []⟩ _ _ List.Pairwise.nil hg).1
    rcases addRepo_origin h.reps.same (data_asc h.ok) _ _ ⟨[], 0, []⟩ _ _ List.Pairwise.nil hg k d hk with h' | ⟨⟨w, l, hw⟩, ha, hi⟩
    · exact nomatch h'
    · refine ⟨⟨w, l, by rw [← h.reps.same]; exact hw⟩, ha, fun p hp => ?_⟩
      obtain ⟨u, hu⟩ := hi p hp
      obtain ⟨_, _, _, _, c, bs, bs', _, hgr, _⟩ := hb.new u p.2 hu rfl
      exact List.mem_map.2 ⟨_, assoc_some_mem hgr, rfl⟩

theorem readAll_keys {N : Type} {env : Repos} {names : List Str} : ∀ {l : List (Str × Json N)} {r : List (Str × SInfo)},
    readAll env names l = some r → r.map Prod.fst = l.map Prod.fst
  | [], r, h => by cases h; rfl
  | (k, d) :: t, r, h => by
    simp only [readAll] at h
    split at h
    · rename_i i r' hi hr
      cases h
      simp only [List.map_cons, readAll_keys hr]
    · cases h

theorem readAll_mem {N : Type} {env : Repos} {names : List Str} : ∀ {l : List (Str × Json N)} {r : List (Str × SInfo)},
    readAll env names l = some r → ∀ p ∈ l, ∃ i, readRepo env names (fieldsOf p.2) = some i
  | [], _, _, _, hp => absurd hp List.not_mem_nil
  | (k, d) :: t, r, h, p, hp => by
    simp only [readAll] at h
    split at h
    · rename_i i r' hi hr
      rcases List.mem_cons.1 hp with rfl | hp
      · exact ⟨i, hi⟩
      · exact readAll_mem hr p hp
    · cases h

theorem readAll_of {N : Type} {env : Repos} {names : List Str} : ∀ {l : List (Str × Json N)} {r : List (Str × SInfo)},
    readAll env names l = some r → ∀ p ∈ r, ∃ d, (p.1, d) ∈ l ∧ readRepo env names (fieldsOf d) = some p.2
  | [], r, h, p, hp => by cases h; exact absurd hp List.not_mem_nil
  | (k, d) :: t, r, h, p, hp => by
    simp only [readAll] at h
    split at h
    · rename_i i r' hi hr
      cases h
      rcases List.mem_cons.1 hp with rfl | hp
      · exact ⟨d, List.mem_cons_self .., hi⟩
      · obtain ⟨d', hd, h'⟩ := readAll_of hr p hp
        exact ⟨d', List.mem_cons_of_mem _ hd, h'⟩
    · cases h

/-- **C100.** If the endpoint can serve all trees, then the configuration it works with after reading what the client
stored looks exactly like that of the client: on every path of local names there is a repository with the same roots,
file names and local names. -/
theorem C100_roundtrip {plain : Str → Str} {C : Config} {R : List (Str × Str)} (h : Setup plain C R) {repo t : Str}
    (ht : storedText C R repo = some t) {j : Json Empty} (hj : Json.dump Empty.elim (Json.pretty 2) 0 j = t)
    {env : Repos} (hk : ∀ w c l, obs (data C) w repo = some (.fixed c l) → AllKnown env c) :
    ∃ C', determineRoots env j = some C' ∧ (config C').OK ∧
      ∀ w, obs (data (config C')) w "0".toList = obs (data C) w repo := by
  obtain ⟨g, _, rfl, ha, _, ho, hg⟩ := graph_spec h ht hj
  have hread : ∀ p ∈ g.graph, ∃ i, readRepo env (g.graph.map Prod.fst) (fieldsOf (descJson p.2)) = some i ∧
      i.info.content = some p.2.1 ∧ i.info.nameMapping = p.2.2 := fun p hp => by
    obtain ⟨⟨w, l, hw⟩, _, hb⟩ := hg p.1 p.2 (assoc_of_mem_asc ha hp)
    exact readRepo_written (hk w _ l hw) hb
  have hnames : (g.graph.map fun p => (p.1, descJson p.2)).map Prod.fst = g.graph.map Prod.fst := by
    rw [List.map_map]; rfl
  obtain ⟨r, hr⟩ : ∃ r, readAll env (g.graph.map Prod.fst) (g.graph.map fun p => (p.1, descJson p.2)) = some r :=
    readAll_complete fun q hq => by
      obtain ⟨p, hp, rfl⟩ := List.mem_map.1 hq
      obtain ⟨i, hi, _⟩ := hread p hp
      exact ⟨i, hi⟩
  have hdata : data (config r) = fun i => assoc i g.graph := by
    funext n
    unfold data config
    rw [assoc_map, readAll_assoc hr, assoc_map]
    cases hn : assoc n g.graph with
    | none => rfl
    | some d =>
      obtain ⟨i, hi, h1, h2⟩ := hread _ (assoc_some_mem hn)
      simp only [Option.map_some, Option.bind_some, hi, h1, h2]
  have h0 : ∃ d, assoc "0".toList g.graph = some d := by
    have := ho []
    cases hd : assoc (decimal 0) g.graph with
    | some d => exact ⟨d, hd⟩
    | none =>
      rw [obs, obs] at this
      simp only [hd] at this
      rcases graph_spec h ht hj with ⟨_, _, _, _, hf, _⟩
      have hf' := hf []
      rw [obs] at hf'
      exact absurd this hf'
  obtain ⟨d0, h0⟩ := h0
  refine ⟨r, ?_, ⟨?_, ?_⟩, ?_⟩
  · unfold determineRoots
    simp only
    rw [assoc_map, h0, hnames]
    exact hr
  · have : (config r).map Prod.fst = g.graph.map Prod.fst := by
      unfold config
      rw [List.map_map, ← hnames, ← readAll_keys hr]
      rfl
    rw [this]
    exact (List.pairwise_map.2 ha).imp fun h => ne_of_lt h
  · intro q hq
    obtain ⟨p, hp, rfl⟩ := List.mem_map.1 hq
    obtain ⟨d, hd, hi⟩ := readAll_of hr p hp
    obtain ⟨q, hq, e⟩ := List.mem_map.1 hd
    obtain ⟨i, hi', _, h2⟩ := hread q hq
    obtain ⟨_, rfl⟩ : q.1 = p.1 ∧ descJson q.2 = d := by simpa using e
    rw [hi] at hi'
    cases hi'
    show Ascending p.2.info.nameMapping
    rw [h2]
    exact (hg q.1 q.2 (assoc_of_mem_asc ha hq)).2.1
  · intro w
    rw [hdata, ho w]
    rfl

/-- **C100.** Hence keys agree: whatever local names are followed, the repository arrived at on the endpoint is stored
under the same text as that arrived at by the client, so that target-cache keys are the same. -/
theorem C100_key {plain plain' : Str → Str} {C : Config} {R R' : List (Str × Str)} (h : Setup plain C R) {repo t : Str}
    (ht : storedText C R repo = some t) {j : Json Empty} (hj : Json.dump Empty.elim (Json.pretty 2) 0 j = t)
    {env : Repos} (hk : ∀ w c l, obs (data C) w repo = some (.fixed c l) → AllKnown env c)
    {C' : List (Str × SInfo)} (hC : determineRoots env j = some C') (h' : Setup plain' (config C') R') {w : List Str}
    {n : Str} (hn : follow (data C) w repo = some n) :
    ∃ n', follow (data (config C')) w "0".toList = some n' ∧ storedText (config C') R' n' = storedText C R n ∧
      ∀ blob, repositoryKey blob (config C') R' n' = repositoryKey blob C R n := by
  obtain ⟨C'', hC'', _, hs⟩ := C100_roundtrip h ht hj hk
  rw [hC] at hC''
  cases hC''
  obtain ⟨n', h1, h2⟩ := follow_same (fun v => (hs v).symm) hn
  have key : storedText (config C') R' n' = storedText C R n := by
    rcases key_spec h n with ⟨⟨v, hv⟩, e⟩ | ⟨g, hg, e, hf, ho⟩
    · rcases key_spec h' n' with ⟨_, e'⟩ | ⟨g', hg', e', hf', ho'⟩
      · rw [e, e']
      · exact absurd ((h2 v).symm.trans hv) (hf' v)
    · rcases key_spec h' n' with ⟨⟨v, hv⟩, e'⟩ | ⟨g', hg', e', hf', ho'⟩
      · exact absurd ((h2 v).trans hv) (hf v)
      · have := (addRepo_match h.reps h'.reps (data_asc h.ok) (data_asc h'.ok) _ _ _ _ _ _ _ _ _ _
          ⟨fun w => by rw [h.reps.same]; exact hf w, fun w => by rw [h.reps.same, h'.reps.same]; exact h2 w⟩
          ⟨rfl, rfl, .nil⟩ hg hg').2.graph
        rw [e, e', this]
  exact ⟨n', h1, key, fun blob => by unfold repositoryKey; rw [key]⟩

/-- No repository of the endpoint is known to have the tree. -/
def Unknown (env : Repos) (r : Root) : Prop := ∀ p ∈ env.gitRoot :: env.known, env.inRepo p r.tree ≠ some true

theorem readRoot_unknown {env : Repos} {key : Str} {desc : List (Str × Json Empty)} {r : Root} (hu : Unknown env r)
    (h : assoc key desc = some r.json) : readRoot env key desc = none := by
  have hs : servingRepo env r.tree = none := by
    cases hs : servingRepo env r.tree with
    | none => rfl
    | some p =>
      obtain ⟨b, a, e, _, hp⟩ := serving_iff.1 hs
      exact absurd hp (hu p (e ▸ by simp))
  unfold readRoot
  rw [h]
  simp only
  rw [parse_root]
  simp only [hs]

theorem readRepo_some {N : Type} {env : Repos} {names : List Str} {desc : List (Str × Json N)} {i : SInfo}
    (h : readRepo env names desc = some i) : readRoot env "workspace_root".toList desc = some i.workspaceRoot ∧
      readRoot env "target_root".toList desc = some i.targetRoot ∧
      readRoot env "rule_root".toList desc = some i.ruleRoot ∧
      readRoot env "expression_root".toList desc = some i.expressionRoot ∧
      readBindings names desc = some i.nameMapping ∧
      readFile "target_file_name".toList desc = some i.targetFile ∧
      readFile "rule_file_name".toList desc = some i.ruleFile ∧
      readFile "expression_file_name".toList desc = some i.expressionFile := by
  simp only [readRepo, Option.bind_eq_bind, Option.bind_eq_some_iff, Option.some.injEq] at h
  obtain ⟨w, hw, t, ht, r, hr, e, he, b, hb, tf, htf, rf, hrf, ef, hef, rfl⟩ := h
  exact ⟨hw, ht, hr, he, hb, htf, hrf, hef⟩

/-- **C100.** If some repository the client's target can refer to has a root that the endpoint does not have, the
request is refused; the endpoint never works with a part of the repositories, or with other content. -/
theorem C100_unknown {plain : Str → Str} {C : Config} {R : List (Str × Str)} (h : Setup plain C R) {repo t : Str}
    (ht : storedText C R repo = some t) {j : Json Empty} (hj : Json.dump Empty.elim (Json.pretty 2) 0 j = t)
    {env : Repos} {w : List Str} {c : Content} {l : List Str} (hw : obs (data C) w repo = some (.fixed c l))
    (hu : Unknown env c.workspaceRoot ∨ Unknown env c.targetRoot ∨ Unknown env c.ruleRoot ∨
      Unknown env c.expressionRoot) : determineRoots env j = none := by
  obtain ⟨g, _, rfl, ha, _, ho, _⟩ := graph_spec h ht hj
  have hreach : ∀ (w : List Str) (x : Str), obs (fun i => assoc i g.graph) w x = some (.fixed c l) →
      ∃ k bs, (k, (c, bs)) ∈ g.graph := by
    intro w
    induction w with
    | nil =>
      intro x hx
      rw [obs] at hx
      cases hd : assoc x g.graph with
      | none => rw [hd] at hx; simp at hx
      | some d =>
        rw [hd] at hx
        simp only [Option.some.injEq, RepoObs.fixed.injEq] at hx
        exact ⟨x, d.2, by have := assoc_some_mem hd; rw [← hx.1]; exact this⟩
    | cons a w ih =>
      intro x hx
      rw [obs] at hx
      cases hd : assoc x g.graph with
      | none => rw [hd] at hx; simp at hx
      | some d =>
        rw [hd] at hx
        simp only at hx
        cases hb : assoc a d.2 with
        | none => rw [hb] at hx; simp at hx
        | some y => rw [hb] at hx; exact ih y hx
  obtain ⟨k, bs, hm⟩ := hreach w _ (by rw [← ho w]; exact hw)
  cases hr : determineRoots env (.obj (g.graph.map fun p => (p.1, descJson p.2))) with
  | none => rfl
  | some r =>
    unfold determineRoots at hr
    simp only at hr
    split at hr
    · cases hr
    · obtain ⟨i, hi⟩ := readAll_mem hr (k, descJson (c, bs)) (List.mem_map.2 ⟨_, hm, rfl⟩)
      obtain ⟨h1, h2, h3, h4, _⟩ := readRepo_some hi
      rcases hu with hu | hu | hu | hu
      · rw [readRoot_unknown (key := "workspace_root".toList) (desc := fieldsOf (descJson (c, bs))) hu rfl] at h1; cases h1
      · rw [readRoot_unknown (key := "target_root".toList) (desc := fieldsOf (descJson (c, bs))) hu rfl] at h2; cases h2
      · rw [readRoot_unknown (key := "rule_root".toList) (desc := fieldsOf (descJson (c, bs))) hu rfl] at h3; cases h3
      · rw [readRoot_unknown (key := "expression_root".toList) (desc := fieldsOf (descJson (c, bs))) hu rfl] at h4; cases h4

theorem readNames_closed {N : Type} {names : List Str} : ∀ {l : List (Str × Json N)} {r : List (Str × Str)},
    readNames names l = some r → ∀ p ∈ r, p.2 ∈ names
  | [], r, h, p, hp => by cases h; exact absurd hp List.not_mem_nil
  | (a, .str g) :: t, r, h, p, hp => by
    simp only [readNames] at h
    split at h
    · rename_i hg
      obtain ⟨r', hr', rfl⟩ := Option.map_eq_some_iff.1 h
      rcases List.mem_cons.1 hp with rfl | hp
      · exact hg
      · exact readNames_closed hr' p hp
    · cases h
  | (_, .null) :: _, _, h, _, _ => by simp [readNames] at h
  | (_, .bool _) :: _, _, h, _, _ => by simp [readNames] at h
  | (_, .num _) :: _, _, h, _, _ => by simp [readNames] at h
  | (_, .arr _) :: _, _, h, _, _ => by simp [readNames] at h
  | (_, .obj _) :: _, _, h, _, _ => by simp [readNames] at h

/-- **C100.** Whatever a client sends, the endpoint only ever works with trees of its own git repositories, the first
one that has the tree; no description makes it read a path, or a git repository, named by the client.  All bindings
lead to repositories of the description, and the main repository is one of them. -/
theorem C100_confined {N : Type} {env : Repos} {j : Json N} {C' : List (Str × SInfo)}
    (h : determineRoots env j = some C') :
    "0".toList ∈ C'.map Prod.fst ∧ ∀ p ∈ C', (∀ b ∈ p.2.nameMapping, b.2 ∈ C'.map Prod.fst) ∧
      ∀ s ∈ [p.2.workspaceRoot, p.2.targetRoot, p.2.ruleRoot, p.2.expressionRoot], ∃ before after asked,
        env.gitRoot :: env.known = before ++ s.repo :: after ∧ (∀ q ∈ before, env.inRepo q asked ≠ some true) ∧
        env.inRepo s.repo asked = some true ∧ env.opens s.repo asked s.ignoreSpecial = some s.tree := by
  unfold determineRoots at h
  split at h
  · rename_i repos
    split at h
    · cases h
    · rename_i d0 h0
      have hk := readAll_keys h
      refine ⟨hk ▸ List.mem_map.2 ⟨_, assoc_some_mem h0, rfl⟩, fun p hp => ?_⟩
      obtain ⟨d, hd, hi⟩ := readAll_of h p hp
      obtain ⟨h1, h2, h3, h4, h5, _⟩ := readRepo_some hi
      have hroot : ∀ {key : Str} {s : Served}, readRoot env key (fieldsOf d) = some s → ∃ before after asked,
          env.gitRoot :: env.known = before ++ s.repo :: after ∧ (∀ q ∈ before, env.inRepo q asked ≠ some true) ∧
          env.inRepo s.repo asked = some true ∧ env.opens s.repo asked s.ignoreSpecial = some s.tree := by
        intro key s hs
        obtain ⟨_, t, _, _, e1, e2⟩ := readRoot_some hs
        obtain ⟨b, a, e3, e4, e5⟩ := serving_iff.1 e1
        exact ⟨b, a, t, e3, e4, e5, e2⟩
      refine ⟨fun b hb => ?_, fun s hs => ?_⟩
      · rw [hk]
        unfold readBindings at h5
        split at h5
        · exact readNames_closed h5 b hb
        · cases h5
      · simp only [List.mem_cons, List.not_mem_nil, or_false] at hs
        rcases hs with rfl | rfl | rfl | rfl
        · exact hroot h1
        · exact hroot h2
        · exact hroot h3
        · exact hroot h4
  · cases h

end Verif.Serve
