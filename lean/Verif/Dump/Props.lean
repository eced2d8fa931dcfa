import Verif.Dump.Model

/-!
# C117: dumps of nodes and anonymous targets
-/

namespace Verif.Dump

open Verif.Expr

section
variable {N A : Type} {id : Val N A → Str}

/-! ## Specification -/

/-- A node. -/
inductive IsNode : Val N A → Prop
  | value (v) : IsNode (.valueNode v)
  | abstract (t s f) : IsNode (.absNode t s f)

/-- A node that is mentioned in a value, not below another one. Artifacts and runfiles of results contain no nodes. -/
inductive Mentions : Val N A → Val N A → Prop
  | here {n} : IsNode n → Mentions n n
  | list {l v n} : v ∈ l → Mentions v n → Mentions (.list l) n
  | item {l k v n} : (k, v) ∈ l → Mentions v n → Mentions (.map l) n
  | provides {s p r n} : Mentions p n → Mentions (.result s p r) n

/-- A node that is mentioned in the definition of a node. -/
inductive Uses : Val N A → Val N A → Prop
  | value {v n} : Mentions v n → Uses (.valueNode v) n
  | abstract {t s f n} : Mentions f n → Uses (.absNode t s f) n

/-- A node that is needed to understand a value: it is mentioned there, or used by one that is needed. -/
inductive Needs (v : Val N A) : Val N A → Prop
  | mentioned {n} : Mentions v n → Needs v n
  | used {m n} : Needs v m → Uses m n → Needs v n

/-! ## Lemmas -/

theorem Mentions.isNode {v n : Val N A} (h : Mentions v n) : IsNode n := by
  induction h with
  | here h => exact h
  | list _ _ ih => exact ih
  | item _ _ ih => exact ih
  | provides _ ih => exact ih

theorem Needs.isNode {v n : Val N A} (h : Needs v n) : IsNode n := by
  cases h with
  | mentioned h => exact h.isNode
  | used _ h => cases h with
    | value h => exact h.isNode
    | abstract h => exact h.isNode

/-- What is added for a property of values: everything mentioned gets an entry, and all new entries are needed ones, of which what they
use has an entry. -/
structure Extends (id : Val N A → Str) (M W : Val N A → Prop) (m m' : Table N A) : Prop where
  new : ∃ l, m' = l ++ m ∧ (l.map Prod.fst).Nodup ∧ ∀ p ∈ l, p.1 ∉ m.map Prod.fst ∧ p.1 = id p.2 ∧ W p.2 ∧
    ∀ n, Uses p.2 n → id n ∈ m'.map Prod.fst
  all : ∀ n, M n → id n ∈ m'.map Prod.fst

theorem Extends.keeps {M W : Val N A → Prop} {m m' : Table N A} (h : Extends id M W m m') {i : Str} (hi : i ∈ m.map Prod.fst) :
    i ∈ m'.map Prod.fst := by
  obtain ⟨l, rfl, -⟩ := h.new
  rw [List.map_append]
  exact List.mem_append_right _ hi

theorem Extends.refl {M W : Val N A → Prop} (m : Table N A) (h : ∀ n, M n → id n ∈ m.map Prod.fst) : Extends id M W m m :=
  ⟨⟨[], rfl, List.nodup_nil, nofun⟩, h⟩

theorem Extends.trans {M M' W W' : Val N A → Prop} {m m' m'' : Table N A} (h : Extends id M W m m') (h' : Extends id M' W' m' m'') :
    Extends id (fun n => M n ∨ M' n) (fun n => W n ∨ W' n) m m'' := by
  obtain ⟨l, e, h1, h2⟩ := h.new
  obtain ⟨l', e', h1', h2'⟩ := h'.new
  refine ⟨⟨l' ++ l, by rw [e', e, List.append_assoc], ?_, ?_⟩, ?_⟩
  · rw [List.map_append, List.nodup_append]
    refine ⟨h1', h1, fun a ha b hb e'' => ?_⟩
    obtain ⟨p, hp, rfl⟩ := List.mem_map.mp ha
    refine (h2' p hp).1 ?_
    rw [e, List.map_append, e'']
    exact List.mem_append_left _ hb
  · intro p hp
    rcases List.mem_append.mp hp with hp | hp
    · obtain ⟨g1, g2, g3, g4⟩ := h2' p hp
      exact ⟨fun hm => g1 (h.keeps hm), g2, .inr g3, g4⟩
    · obtain ⟨g1, g2, g3, g4⟩ := h2 p hp
      exact ⟨g1, g2, .inl g3, fun n hn => h'.keeps (g4 n hn)⟩
  · rintro n (hn | hn)
    · exact h'.keeps (h.all n hn)
    · exact h'.all n hn

theorem Extends.mono {M M' W W' : Val N A → Prop} {m m' : Table N A} (h : Extends id M W m m') (hm : ∀ n, M' n → M n)
    (hw : ∀ n, W n → W' n) : Extends id M' W' m m' := by
  obtain ⟨l, e, h1, h2⟩ := h.new
  exact ⟨⟨l, e, h1, fun p hp => ⟨(h2 p hp).1, (h2 p hp).2.1, hw _ (h2 p hp).2.2.1, (h2 p hp).2.2.2⟩⟩, fun n hn => h.all n (hm n hn)⟩

theorem needs_sub {v w n : Val N A} (h : ∀ n, Mentions w n → Needs v n) (hn : Needs w n) : Needs v n := by
  induction hn with
  | mentioned hm => exact h _ hm
  | used _ hu ih => exact .used ih hu

theorem mentions_node {v n : Val N A} (hv : IsNode v) (h : Mentions v n) : n = v := by
  cases hv <;> cases h <;> rfl

/-- A node with content `w`. -/
theorem node_extends {v w : Val N A} (hv : IsNode v) (hu : ∀ n, Uses v n ↔ Mentions w n)
    (ih : ∀ m, Extends id (Mentions w) (Needs w) m (nodes id w m)) (m : Table N A)
    (he : nodes id v m = match add id v m with | none => m | some m' => nodes id w m') :
    Extends id (Mentions v) (Needs v) m (nodes id v m) := by
  rw [he]
  unfold add
  by_cases hm : id v ∈ m.map Prod.fst
  · rw [if_pos hm]
    exact Extends.refl m fun n hn => by rw [mentions_node hv hn]; exact hm
  · rw [if_neg hm]
    dsimp only
    have h := ih ((id v, v) :: m)
    obtain ⟨l, e, h1, h2⟩ := h.new
    have hself : id v ∈ (nodes id w ((id v, v) :: m)).map Prod.fst := h.keeps List.mem_cons_self
    refine ⟨⟨l ++ [(id v, v)], by rw [e, List.append_assoc]; rfl, ?_, ?_⟩, fun n hn => by rw [mentions_node hv hn]; exact hself⟩
    · rw [List.map_append, List.nodup_append]
      refine ⟨h1, by simp, fun a ha b hb e => ?_⟩
      obtain ⟨p, hp, rfl⟩ := List.mem_map.mp ha
      refine (h2 p hp).1 ?_
      rw [e, List.mem_singleton.mp hb]
      exact List.mem_cons_self
    · intro p hp
      rcases List.mem_append.mp hp with hp | hp
      · obtain ⟨g1, g2, g3, g4⟩ := h2 p hp
        refine ⟨fun h => g1 (List.mem_cons_of_mem _ h), g2, ?_, g4⟩
        exact needs_sub (fun n hn => .used (.mentioned (.here hv)) ((hu n).mpr hn)) g3
      · rw [List.mem_singleton.mp hp]
        exact ⟨hm, rfl, .mentioned (.here hv), fun n hn => h.all n ((hu n).mp hn)⟩

mutual
theorem nodes_extends : ∀ (v : Val N A) (m : Table N A), Extends id (Mentions v) (Needs v) m (nodes id v m)
  | .valueNode v, m => node_extends (.value v) (fun n => ⟨fun h => by cases h; assumption, .value⟩) (nodes_extends v) m (by rw [nodes]; rfl)
  | .absNode t s f, m =>
    node_extends (.abstract t s f) (fun n => ⟨fun h => by cases h; assumption, .abstract⟩) (nodes_extends f) m (by rw [nodes]; rfl)
  | .list l, m => by
    rw [nodes]
    refine (nodesList_extends l m).mono ?_ ?_
    · intro n h
      cases h with
      | here h => cases h
      | list h h' => exact ⟨_, h, h'⟩
    · rintro n ⟨v, hv, h⟩
      exact needs_sub (fun n hn => .mentioned (.list hv hn)) h
  | .map l, m => by
    rw [nodes]
    refine (nodesItems_extends l m).mono ?_ ?_
    · intro n h
      cases h with
      | here h => cases h
      | item h h' => exact ⟨_, _, h, h'⟩
    · rintro n ⟨k, v, hv, h⟩
      exact needs_sub (fun n hn => .mentioned (.item hv hn)) h
  | .result s p r, m => by
    rw [nodes]
    refine (nodes_extends p m).mono ?_ ?_
    · intro n h
      cases h with
      | here h => cases h
      | provides h => exact h
    · exact fun n h => needs_sub (fun n hn => .mentioned (.provides hn)) h
  | .none, m | .bool _, m | .num _, m | .str _, m | .name _, m | .art _, m => by
    rw [nodes]
    · refine Extends.refl m fun n h => ?_
      cases h with
      | here h => cases h
    all_goals nofun
theorem nodesList_extends : ∀ (l : List (Val N A)) (m : Table N A),
    Extends id (fun n => ∃ v, v ∈ l ∧ Mentions v n) (fun n => ∃ v, v ∈ l ∧ Needs v n) m (nodesList id l m)
  | [], m => Extends.refl m (by rintro n ⟨v, hv, -⟩; cases hv)
  | v :: l, m => by
    rw [nodesList]
    refine ((nodes_extends v m).trans (nodesList_extends l _)).mono ?_ ?_
    · rintro n ⟨w, hw, h⟩
      rcases List.mem_cons.mp hw with rfl | hw
      · exact .inl h
      · exact .inr ⟨w, hw, h⟩
    · rintro n (h | ⟨w, hw, h⟩)
      · exact ⟨v, List.mem_cons_self, h⟩
      · exact ⟨w, List.mem_cons_of_mem _ hw, h⟩
theorem nodesItems_extends : ∀ (l : List (Str × Val N A)) (m : Table N A),
    Extends id (fun n => ∃ k v, (k, v) ∈ l ∧ Mentions v n) (fun n => ∃ k v, (k, v) ∈ l ∧ Needs v n) m (nodesItems id l m)
  | [], m => Extends.refl m (by rintro n ⟨k, v, hv, -⟩; cases hv)
  | (k, v) :: l, m => by
    rw [nodesItems]
    refine ((nodes_extends v m).trans (nodesItems_extends l _)).mono ?_ ?_
    · rintro n ⟨k', w, hw, h⟩
      rcases List.mem_cons.mp hw with e | hw
      · cases e; exact .inl h
      · exact .inr ⟨k', w, hw, h⟩
    · rintro n (h | ⟨k', w, hw, h⟩)
      · exact ⟨k, v, List.mem_cons_self, h⟩
      · exact ⟨k', w, List.mem_cons_of_mem _ hw, h⟩
end

/-- All of an extension of the empty map, for values that mention and need the same. -/
theorem Extends.complete {S : Val N A → Prop} {d : Table N A}
    (h : Extends id (fun n => ∃ v, S v ∧ Mentions v n) (fun n => ∃ v, S v ∧ Needs v n) [] d)
    (hid : ∀ v w n n', S v → S w → Needs v n → Needs w n' → id n = id n' → n = n') {i : Str} {n : Val N A} :
    (i, n) ∈ d ↔ i = id n ∧ ∃ v, S v ∧ Needs v n := by
  obtain ⟨l, e, -, h2⟩ := h.new
  rw [List.append_nil] at e
  subst e
  constructor
  · intro hp
    exact ⟨(h2 _ hp).2.1, (h2 _ hp).2.2.1⟩
  · have key : ∀ {v n}, S v → Needs v n → id n ∈ d.map Prod.fst → (id n, n) ∈ d := by
      intro v n hv hn hi
      obtain ⟨p, hp, e⟩ := List.mem_map.mp hi
      obtain ⟨-, g2, ⟨w, hw, g3⟩, -⟩ := h2 p hp
      have : p.2 = n := hid w v _ _ hw hv g3 hn (g2.symm.trans e)
      rw [← this, ← g2]
      exact hp
    rintro ⟨rfl, v, hv, hn⟩
    refine key hv hn ?_
    induction hn with
    | mentioned hm => exact h.all _ ⟨v, hv, hm⟩
    | used hm hu ih => exact (h2 _ (key hv hm ih)).2.2.2 _ hu

/-! ## Properties -/

/-- **C117.** The dump of nodes has exactly those needed for what the target provides, each under its identifier, if different nodes have
different identifiers. -/
theorem C117_nodes {provides : Val N A} (hid : ∀ n n', Needs provides n → Needs provides n' → id n = id n' → n = n') (i : Str) (n : Val N A) :
    (i, n) ∈ dumpNodes id provides ↔ i = id n ∧ Needs provides n := by
  have h : Extends id (fun n => ∃ v, v = provides ∧ Mentions v n) (fun n => ∃ v, v = provides ∧ Needs v n) [] (dumpNodes id provides) :=
    (nodes_extends provides []).mono (by rintro n ⟨v, rfl, h⟩; exact h) (fun n h => ⟨_, rfl, h⟩)
  rw [h.complete (by rintro v w n n' rfl rfl; exact hid n n')]
  constructor
  · rintro ⟨e, v, e', hn⟩; exact ⟨e, e' ▸ hn⟩
  · rintro ⟨e, hn⟩; exact ⟨e, _, rfl, hn⟩

/-- **C117.** Even if identifiers were not unique, no identifier is missing: each one that is shown for what the target provides, or in a
definition of the dump, has a definition, and only one. -/
theorem C117_closed (provides : Val N A) : ((dumpNodes id provides).map Prod.fst).Nodup ∧
    (∀ n, Mentions provides n → id n ∈ (dumpNodes id provides).map Prod.fst) ∧
    ∀ p ∈ dumpNodes id provides, ∀ n, Uses p.2 n → id n ∈ (dumpNodes id provides).map Prod.fst := by
  have h := nodes_extends (id := id) provides []
  obtain ⟨l, e, h1, h2⟩ := h.new
  rw [List.append_nil] at e
  unfold dumpNodes
  refine ⟨by rw [e]; exact h1, h.all, fun p hp n hn => (h2 p (e ▸ hp)).2.2.2 n hn⟩

theorem anonymous_fold (ts : List (Anonymous N A)) : ∀ (d : Table N A × Table N A),
    let r := ts.foldl (fun d t => ((add id t.ruleMap d.1).getD d.1, nodes id t.node d.2)) d
    Extends id (fun n => ∃ v, (∃ t ∈ ts, t.node = v) ∧ Mentions v n) (fun n => ∃ v, (∃ t ∈ ts, t.node = v) ∧ Needs v n) d.2 r.2 ∧
    (∀ p, p ∈ r.1 → p ∈ d.1 ∨ ∃ t ∈ ts, p = (id t.ruleMap, t.ruleMap)) ∧ (∀ p ∈ d.1, p ∈ r.1) ∧
    (∀ t ∈ ts, id t.ruleMap ∈ r.1.map Prod.fst) ∧ ((d.1.map Prod.fst).Nodup → (r.1.map Prod.fst).Nodup) := by
  induction ts with
  | nil => exact fun d => ⟨Extends.refl _ (by rintro n ⟨v, ⟨t, ht, -⟩, -⟩; cases ht), fun p hp => .inl hp, fun p hp => hp, nofun, fun h => h⟩
  | cons t ts ih =>
    intro d
    dsimp only
    rw [List.foldl_cons]
    obtain ⟨g1, g2, g3, g4, g5⟩ := ih ((add id t.ruleMap d.1).getD d.1, nodes id t.node d.2)
    have ha : (∀ p, p ∈ (add id t.ruleMap d.1).getD d.1 → p ∈ d.1 ∨ p = (id t.ruleMap, t.ruleMap)) ∧
        (∀ p ∈ d.1, p ∈ (add id t.ruleMap d.1).getD d.1) ∧ id t.ruleMap ∈ ((add id t.ruleMap d.1).getD d.1).map Prod.fst ∧
        ((d.1.map Prod.fst).Nodup → (((add id t.ruleMap d.1).getD d.1).map Prod.fst).Nodup) := by
      unfold add
      by_cases hm : id t.ruleMap ∈ d.1.map Prod.fst
      · rw [if_pos hm]
        exact ⟨fun p hp => .inl hp, fun p hp => hp, hm, fun h => h⟩
      · rw [if_neg hm]
        exact ⟨fun p hp => (List.mem_cons.mp hp).symm, fun p hp => List.mem_cons_of_mem _ hp, List.mem_cons_self,
          fun h => List.nodup_cons.mpr ⟨hm, h⟩⟩
    refine ⟨((nodes_extends t.node d.2).trans g1).mono ?_ ?_, ?_, fun p hp => g3 p (ha.2.1 p hp), ?_, fun h => g5 (ha.2.2.2 h)⟩
    · rintro n ⟨v, ⟨t', ht, rfl⟩, h⟩
      rcases List.mem_cons.mp ht with rfl | ht
      · exact .inl h
      · exact .inr ⟨_, ⟨t', ht, rfl⟩, h⟩
    · rintro n (h | ⟨v, ⟨t', ht, rfl⟩, h⟩)
      · exact ⟨_, ⟨t, List.mem_cons_self, rfl⟩, h⟩
      · exact ⟨_, ⟨t', List.mem_cons_of_mem _ ht, rfl⟩, h⟩
    · intro p hp
      rcases g2 p hp with h | ⟨t', ht, e⟩
      · exact (ha.1 p h).imp_right fun e => ⟨t, List.mem_cons_self, e⟩
      · exact .inr ⟨t', List.mem_cons_of_mem _ ht, e⟩
    · intro t' ht
      rcases List.mem_cons.mp ht with rfl | ht
      · obtain ⟨p, hp, e⟩ := List.mem_map.mp ha.2.2.1
        exact List.mem_map.mpr ⟨p, g3 p hp, e⟩
      · exact g4 t' ht

/-- **C117.** The dump of anonymous targets has exactly the rule maps of these targets, and exactly the nodes needed for them, each under
its identifier, if different rule maps and different nodes have different identifiers. -/
theorem C117_anonymous {targets : List (Anonymous N A)}
    (hr : ∀ t ∈ targets, ∀ t' ∈ targets, id t.ruleMap = id t'.ruleMap → t.ruleMap = t'.ruleMap)
    (hid : ∀ t ∈ targets, ∀ t' ∈ targets, ∀ n n', Needs t.node n → Needs t'.node n' → id n = id n' → n = n') (i : Str) (v : Val N A) :
    ((i, v) ∈ (dumpAnonymous id targets).1 ↔ i = id v ∧ ∃ t ∈ targets, t.ruleMap = v) ∧
    ((i, v) ∈ (dumpAnonymous id targets).2 ↔ i = id v ∧ ∃ t ∈ targets, Needs t.node v) := by
  obtain ⟨g1, g2, -, g4, -⟩ := anonymous_fold (id := id) targets ([], [])
  constructor
  · constructor
    · intro h
      rcases g2 _ h with h | ⟨t, ht, e⟩
      · cases h
      · cases e; exact ⟨rfl, t, ht, rfl⟩
    · rintro ⟨rfl, t, ht, rfl⟩
      obtain ⟨p, hp, e⟩ := List.mem_map.mp (g4 t ht)
      rcases g2 p hp with h | ⟨t', ht', rfl⟩
      · cases h
      · rw [hr t' ht' t ht e] at hp
        exact hp
  · refine (g1.complete ?_).trans ⟨?_, ?_⟩
    · rintro v w n n' ⟨t, ht, rfl⟩ ⟨t', ht', rfl⟩
      exact hid t ht t' ht' n n'
    · rintro ⟨rfl, v, ⟨t, ht, rfl⟩, h⟩
      exact ⟨rfl, t, ht, h⟩
    · rintro ⟨rfl, t, ht, h⟩
      exact ⟨rfl, _, ⟨t, ht, rfl⟩, h⟩

/-- **C117.** In both parts of the dump of anonymous targets, each identifier has one definition only. -/
theorem C117_unique (targets : List (Anonymous N A)) : ((dumpAnonymous id targets).1.map Prod.fst).Nodup ∧
    ((dumpAnonymous id targets).2.map Prod.fst).Nodup := by
  obtain ⟨g1, -, -, -, g5⟩ := anonymous_fold (id := id) targets ([], [])
  refine ⟨g5 List.nodup_nil, ?_⟩
  obtain ⟨l, e, h1, -⟩ := g1.new
  rw [List.append_nil] at e
  unfold dumpAnonymous
  rw [e]
  exact h1

end

end Verif.Dump
