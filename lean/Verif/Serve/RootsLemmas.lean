import Verif.Serve.Roots

/-!
# Lemmas about the repositories of a request
-/

namespace Verif.Serve

open Verif Verif.MrConfig Verif.Repo

/-! ## Where the entries of the graph come from -/

section
variable {D : Str → Option (Content × List (Str × Str))} {canon : Str → Str}

/-- An entry of the graph describes a repository that can be reached, and all it binds has an identifier. -/
def Origin (D : Str → Option (Content × List (Str × Str))) (x : Str) (g : Graph)
    (d : Content × List (Str × Str)) : Prop :=
  (∃ w l, obs D w x = some (.fixed d.1 l)) ∧ Ascending d.2 ∧ ∀ p ∈ d.2, ∃ u, assoc u g.ids = some p.2

theorem Origin.mono {x : Str} {g g' : Graph} {d : Content × List (Str × Str)} (h : Origin D x g d)
    (hi : ∀ u i, assoc u g.ids = some i → assoc u g'.ids = some i) : Origin D x g' d :=
  ⟨h.1, h.2.1, fun p hp => (h.2.2 p hp).imp fun _ hu => hi _ _ hu⟩

theorem addBindings_origin {add : Str → Graph → Repo.Out Str}
    (hadd : ∀ x g i g', Ascending g.graph → add x g = .ok i g' → Built D canon g g' ∧ assoc (canon x) g'.ids = some i)
    (ho : ∀ x g i g', Ascending g.graph → add x g = .ok i g' → ∀ k d, assoc k g'.graph = some d →
      assoc k g.graph = some d ∨ Origin D x g' d) :
    ∀ (bs : List (Str × Str)) (g : Graph) (r : List (Str × Str)) (g' : Graph), Ascending g.graph →
      addBindings add bs g = .ok r g' → ∀ k d, assoc k g'.graph = some d →
        assoc k g.graph = some d ∨ ∃ p ∈ bs, Origin D p.2 g' d
  | [], g, r, g', ha, h, k, d, hk => by
    rw [addBindings] at h
    injection h with h1 h2
    subst h1 h2
    exact .inl hk
  | (l, x) :: t, g, r, g', ha, h, k, d, hk => by
    rw [addBindings] at h
    cases hx : add x g with
    | deep => rw [hx] at h; exact nomatch h
    | unfixed => rw [hx] at h; exact nomatch h
    | ok i g1 =>
      rw [hx] at h
      simp only at h
      cases ht : addBindings add t g1 with
      | deep => rw [ht] at h; exact nomatch h
      | unfixed => rw [ht] at h; exact nomatch h
      | ok r' g2 =>
        rw [ht] at h
        injection h with h1 h2
        subst h1 h2
        obtain ⟨b1, i1⟩ := hadd x g i g1 ha hx
        obtain ⟨b2, _⟩ := addBindings_built hadd t g1 r' g2 b1.asc ht
        rcases addBindings_origin hadd ho t g1 r' g2 b1.asc ht k d hk with h' | ⟨p, hp, h'⟩
        · rcases ho x g i g1 ha hx k d h' with h'' | h''
          · exact .inl h''
          · exact .inr ⟨_, List.mem_cons_self .., h''.mono b2.ids⟩
        · exact .inr ⟨p, List.mem_cons_of_mem _ hp, h'⟩

theorem assoc_of_mem_asc {V : Type} : ∀ {l : List (Str × V)}, Ascending l → ∀ {p}, p ∈ l → assoc p.1 l = some p.2
  | [], _, _, h => absurd h List.not_mem_nil
  | (k, v) :: t, ha, p, h => by
    unfold Ascending at ha
    rw [List.pairwise_cons] at ha
    rcases List.mem_cons.1 h with rfl | h
    · simp [assoc]
    · have hlt := ha.1 p h
      have hne : p.1 ≠ k := fun e => by rw [e] at hlt; exact absurd hlt (lt_irrefl _)
      simp only [assoc, if_neg hne]
      exact assoc_of_mem_asc ha.2 h

theorem forall₂_asc {Q : Str × Str → Str × Str → Prop} (hq : ∀ p q, Q p q → p.1 = q.1) :
    ∀ {bs r : List (Str × Str)}, List.Forall₂ Q bs r → Ascending bs → Ascending r := by
  intro bs r h ha
  have hk : bs.map Prod.fst = r.map Prod.fst := by
    induction h with
    | nil => rfl
    | cons hh _ ih =>
      simp only [List.map_cons, hq _ _ hh]
      unfold Ascending at ha
      rw [ih (List.pairwise_cons.1 ha).2]
  unfold Ascending at ha ⊢
  have h1 : (bs.map Prod.fst).Pairwise (· < ·) := List.pairwise_map.2 ha
  rw [hk] at h1
  exact List.pairwise_map.1 h1

theorem addRepo_origin (hc : ∀ a w, obs D w (canon a) = obs D w a)
    (has : ∀ n c bs, D n = some (c, bs) → Ascending bs) :
    ∀ (n : Nat) (x : Str) (g : Graph) (i : Str) (g' : Graph), Ascending g.graph →
      addRepo D canon n x g = .ok i g' → ∀ k d, assoc k g'.graph = some d →
        assoc k g.graph = some d ∨ Origin D x g' d
  | n + 1, x, g, i, g', ha, h, k, d, hk => by
    have hbuilt := addRepo_built (n + 1) x g i g' ha h
    rw [addRepo] at h
    cases hi : assoc (canon x) g.ids with
    | some j =>
      rw [hi] at h
      injection h with h1 h2
      subst h1 h2
      exact .inl hk
    | none =>
      rw [hi] at h
      simp only at h
      cases hd : D (canon x) with
      | none => rw [hd] at h; exact nomatch h
      | some d' =>
        obtain ⟨c, bs⟩ := d'
        rw [hd] at h
        simp only at h
        cases hb : addBindings (addRepo D canon n) bs
            ⟨g.graph, g.counter + 1, (canon x, decimal g.counter) :: g.ids⟩ with
        | deep => rw [hb] at h; exact nomatch h
        | unfixed => rw [hb] at h; exact nomatch h
        | ok r g2 =>
          rw [hb] at h
          injection h with h1 h2
          subst h1 h2
          have ha' : Ascending (⟨g.graph, g.counter + 1, (canon x, decimal g.counter) :: g.ids⟩ : Graph).graph := ha
          obtain ⟨b, f⟩ := addBindings_built (addRepo_built n) bs
            ⟨g.graph, g.counter + 1, (canon x, decimal g.counter) :: g.ids⟩ r g2 ha' hb
          have hbs := has _ _ _ hd
          simp only at hk
          rw [assoc_insertList _ _ _ _ b.asc] at hk
          by_cases hkk : k = decimal g.counter
          · rw [if_pos hkk] at hk
            have hdd : d = (c, r) := by
              cases hx : assoc (decimal g.counter) g2.graph <;> rw [hx] at hk <;> exact (Option.some.inj hk).symm
            subst hdd
            refine .inr ⟨⟨[], bs.map Prod.fst, ?_⟩, forall₂_asc (fun _ _ h => h.1) f hbs, ?_⟩
            · rw [← hc, obs, hd]
            · intro q hq
              obtain ⟨p, _, hpq⟩ : ∃ p ∈ bs, p.1 = q.1 ∧ assoc (canon p.2) g2.ids = some q.2 := by
                clear hb b hbuilt hk hbs ha' hd
                induction f with
                | nil => exact absurd hq List.not_mem_nil
                | cons hh _ ih =>
                  rcases List.mem_cons.1 hq with rfl | hq
                  · exact ⟨_, List.mem_cons_self .., hh⟩
                  · obtain ⟨p, hp, hpq⟩ := ih hq
                    exact ⟨p, List.mem_cons_of_mem _ hp, hpq⟩
              exact ⟨_, hpq.2⟩
          · rw [if_neg hkk] at hk
            rcases addBindings_origin (addRepo_built n) (addRepo_origin hc has n) bs _ r g2 ha' hb k d hk with h' | ⟨p, hp, h'⟩
            · exact .inl h'
            · refine .inr ⟨?_, h'.2.1, h'.2.2⟩
              obtain ⟨w, l, hw⟩ := h'.1
              refine ⟨p.1 :: w, l, ?_⟩
              rw [← hc, obs, hd]
              simp only
              rw [assoc_of_mem_asc hbs hp]
              exact hw

end

/-! ## Reading what was written -/

theorem serving_iff {env : Repos} {t p : Str} : servingRepo env t = some p ↔
    ∃ before after, env.gitRoot :: env.known = before ++ p :: after ∧
      (∀ q ∈ before, env.inRepo q t ≠ some true) ∧ env.inRepo p t = some true := by
  have : servingRepo env t =
      (env.gitRoot :: env.known).find? fun p => decide (env.inRepo p t = some true) := by
    unfold servingRepo
    rw [List.find?_cons]
    by_cases h : env.inRepo env.gitRoot t = some true <;> simp [h]
  rw [this, List.find?_eq_some_iff_append]
  constructor
  · rintro ⟨h1, as, bs, h2, h3⟩
    exact ⟨as, bs, h2, fun q hq => by simpa using h3 q hq, by simpa using h1⟩
  · rintro ⟨as, bs, h2, h3, h1⟩
    exact ⟨by simpa using h1, as, bs, h2, fun q hq => by simpa using h3 q hq⟩

theorem parse_root (r : Root) : parseRoot (fun _ _ => false) r.json = some (.absent r.tree r.ignoreSpecial, none) := by
  obtain ⟨b, t⟩ := r
  cases b <;> rfl

theorem readRoot_known {env : Repos} {key : Str} {desc : List (Str × Json Empty)} {r : Root} (hk : Known env r)
    (h : assoc key desc = some r.json) : ∃ s, readRoot env key desc = some s ∧ s.root = r := by
  obtain ⟨before, p, after, h1, h2, h3, h4⟩ := hk
  have hs : servingRepo env r.tree = some p := serving_iff.2 ⟨before, after, h1, h2, h3⟩
  unfold readRoot
  rw [h]
  simp only
  rw [parse_root]
  simp only [hs, h4]
  exact ⟨_, rfl, rfl⟩

theorem readRoot_some {N : Type} {env : Repos} {key : Str} {desc : List (Str × Json N)} {s : Served}
    (h : readRoot env key desc = some s) : ∃ j t, assoc key desc = some j ∧
      parseRoot (fun _ _ => false) j = some (.absent t s.ignoreSpecial, none) ∧ servingRepo env t = some s.repo ∧
      env.opens s.repo t s.ignoreSpecial = some s.tree := by
  unfold readRoot at h
  split at h
  · cases h
  · rename_i j hj
    split at h
    · rename_i tree ign x hx
      have hx' : x = none := by
        unfold parseRoot at hx
        split at hx
        · split at hx
          · split at hx <;> cases hx
          · split at hx
            · obtain ⟨y, _, hy⟩ := Option.map_eq_some_iff.1 hx
              simp only [Prod.mk.injEq] at hy
              exact hy.2.symm
            · split at hx
              · split at hx <;> cases hx
              · split at hx
                · obtain ⟨y, _, hy⟩ := Option.map_eq_some_iff.1 hx
                  simp only [Prod.mk.injEq] at hy
                  exact hy.2.symm
                · split at hx
                  · split at hx
                    · obtain ⟨y, _, hy⟩ := Option.map_eq_some_iff.1 hx
                      simp only [Prod.mk.injEq] at hy
                      exact hy.2.symm
                    · cases hx
                  · split at hx
                    · split at hx
                      · obtain ⟨y, _, hy⟩ := Option.map_eq_some_iff.1 hx
                        simp only [Prod.mk.injEq] at hy
                        exact hy.2.symm
                      · cases hx
                    · cases hx
        · cases hx
      subst hx'
      split at h
      · cases h
      · rename_i p hp
        obtain ⟨t', ht', rfl⟩ := Option.map_eq_some_iff.1 h
        exact ⟨j, tree, hj, hx, hp, ht'⟩
    · cases h

theorem readNames_written {names : List Str} : ∀ {bs : List (Str × Str)}, (∀ p ∈ bs, p.2 ∈ names) →
    readNames names (bs.map fun p => (p.1, (Json.str p.2 : Json Empty))) = some bs
  | [], _ => rfl
  | (l, g) :: t, h => by
    simp only [List.map_cons, readNames]
    rw [if_pos (h _ (List.mem_cons_self ..)), readNames_written fun p hp => h p (List.mem_cons_of_mem _ hp)]
    rfl

theorem readRepo_written {env : Repos} {names : List Str} {d : Content × List (Str × Str)} (hk : AllKnown env d.1)
    (hb : ∀ p ∈ d.2, p.2 ∈ names) : ∃ i, readRepo env names (fieldsOf (descJson d)) = some i ∧
      i.info.content = some d.1 ∧ i.info.nameMapping = d.2 := by
  obtain ⟨c, bs⟩ := d
  obtain ⟨k1, k2, k3, k4⟩ := hk
  obtain ⟨w, hw, ew⟩ := readRoot_known (key := "workspace_root".toList) (desc := fieldsOf (descJson (c, bs))) k1 rfl
  obtain ⟨t, ht, et⟩ := readRoot_known (key := "target_root".toList) (desc := fieldsOf (descJson (c, bs))) k2 rfl
  obtain ⟨r, hr, er⟩ := readRoot_known (key := "rule_root".toList) (desc := fieldsOf (descJson (c, bs))) k3 rfl
  obtain ⟨e, he, ee⟩ := readRoot_known (key := "expression_root".toList) (desc := fieldsOf (descJson (c, bs))) k4 rfl
  have h5 : readBindings names (fieldsOf (descJson (c, bs))) = some bs := readNames_written hb
  refine ⟨⟨w, t, r, e, c.targetFile, c.ruleFile, c.expressionFile, bs⟩, ?_, ?_, rfl⟩
  · unfold readRepo
    rw [hw, ht, hr, he, h5]
    rfl
  · unfold SInfo.info
    rw [ew, et, er, ee]
    rfl

theorem readAll_assoc {N : Type} {env : Repos} {names : List Str} : ∀ {l : List (Str × Json N)} {r : List (Str × SInfo)},
    readAll env names l = some r → ∀ n, assoc n r = (assoc n l).bind fun d => readRepo env names (fieldsOf d)
  | [], r, h, n => by cases h; rfl
  | (k, d) :: t, r, h, n => by
    simp only [readAll] at h
    split at h
    · rename_i i r' hi hr
      cases h
      simp only [assoc]
      by_cases hn : n = k
      · simp only [hn, if_true, Option.bind_some, hi]
      · simp only [hn, if_false]
        exact readAll_assoc hr n
    · cases h

theorem readAll_complete {N : Type} {env : Repos} {names : List Str} : ∀ {l : List (Str × Json N)},
    (∀ p ∈ l, ∃ i, readRepo env names (fieldsOf p.2) = some i) → ∃ r, readAll env names l = some r
  | [], _ => ⟨_, rfl⟩
  | (k, d) :: t, h => by
    obtain ⟨i, hi⟩ := h _ (List.mem_cons_self ..)
    obtain ⟨r, hr⟩ := readAll_complete fun p hp => h p (List.mem_cons_of_mem _ hp)
    exact ⟨_, by simp only [readAll, hi, hr]; rfl⟩

theorem assoc_map {V W : Type} (f : V → W) (n : Str) : ∀ l : List (Str × V),
    assoc n (l.map fun p => (p.1, f p.2)) = (assoc n l).map f
  | [] => rfl
  | (k, v) :: t => by
    simp only [List.map_cons, assoc]
    by_cases h : n = k
    · simp [h]
    · simp only [h, if_false]; exact assoc_map f n t

end Verif.Serve
