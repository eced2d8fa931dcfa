import Verif.Repo.Structure
import Verif.Repo.ArtifactsRootProps

/-!
# C81: tree structures
-/

namespace Verif.Struct

open Verif.Dig (ObjectType)
open Verif.Roots (Canonical entries lookIn look_created canonical_created)
open Verif.Tree (Info Obs Env Store Ent Groups Listing NoCollision look retrieve parseTree group flat addTo createTree)

/-! ## Specification -/

/-- What remains of a file in the structure of a tree: its type. -/
def blank (b : Str) : Obs → Obs
  | .dir => .dir
  | .leaf ty _ => .leaf ty b

/-- `v` is the structure of the tree `k`: it has the same directories, and files of the same type at the same places, which
are all empty. -/
def Structure (E : Env) (S : Store) (b k v : Str) : Prop :=
  ∀ q, look E S ⟨.tree, v⟩ q = (look E S ⟨.tree, k⟩ q).map (blank b)

/-- A tree is in the storage. -/
def In (E : Env) (S : Store) (id : Str) : Prop := ∃ d ∈ S, E.H d = id

/-- States that can occur, if all trees there are in `U`: trees are stored after the trees in them, structures are
computed, and storage and cache are garbage collected, the storage in a way that it remains closed. -/
inductive Reach (E : Env) (U : Store) (b : Str) (ord : List Ent → List Ent) : State → Prop
  | start (k : Nat) : Reach E U b ord ⟨[], [], List.replicate k []⟩
  | store {s : State} {d : Str} {l : List Ent} : Reach E U b ord s → d ∈ U → parseTree d = some l → Listing l →
      (∀ e ∈ l, e.type = .tree → In E s.cas e.id) → Reach E U b ord { s with cas := d :: s.cas }
  | compute {s : State} (n : Nat) (id : Str) : Reach E U b ord s → (∀ d ∈ (compute E b ord n id s).2.cas, d ∈ U) →
      Reach E U b ord (compute E b ord n id s).2
  | collect {s : State} {cas : Store} : Reach E U b ord s → (∀ d ∈ cas, d ∈ s.cas) →
      (∀ d ∈ cas, ∀ l, parseTree d = some l → ∀ e ∈ l, e.type = .tree → In E cas e.id) →
      Reach E U b ord { s with cas := cas }
  | rotate {s : State} : Reach E U b ord s → Reach E U b ord ⟨s.cas, [], (s.latest :: s.older).dropLast⟩

/-! ## Trees that are in the storage with everything below -/

inductive Whole (E : Env) (S : Store) : Info → Prop
  | leaf {i : Info} : i.type ≠ .tree → Whole E S i
  | tree {id d : Str} {l : List Ent} : retrieve E S id = some d → parseTree d = some l → Listing l →
      (∀ e ∈ l, Whole E S ⟨e.type, e.id⟩) → Whole E S ⟨.tree, id⟩

theorem in_retrieve {E : Env} {S : Store} (id : Str) : In E S id ↔ retrieve E S id ≠ none := by
  unfold retrieve In
  rw [Ne, List.find?_eq_none]
  constructor
  · rintro ⟨d, hd, e⟩ h
    exact h d hd (by simpa using e)
  · intro h
    refine Classical.byContradiction fun hn => h fun d hd => ?_
    simp only [decide_eq_true_eq]
    exact fun e => hn ⟨d, hd, e⟩

theorem in_some {E : Env} {S : Store} {id : Str} (h : In E S id) : ∃ d, retrieve E S id = some d :=
  Option.ne_none_iff_exists'.1 ((in_retrieve id).1 h)

theorem In.mono {E : Env} {S T : Store} (h : ∀ d ∈ S, d ∈ T) {id : Str} : In E S id → In E T id
  | ⟨d, hd, e⟩ => ⟨d, h d hd, e⟩

theorem Whole.super {E : Env} {S T : Store} (hT : NoCollision E T) (h : ∀ d ∈ S, d ∈ T) {i : Info} (hw : Whole E S i) :
    Whole E T i := by
  induction hw with
  | leaf h => exact .leaf h
  | tree hr hp hl _ ih => exact .tree (Tree.retrieve_super hT h hr) hp hl ih

/-- What is in such a tree is the same for all storages that contain this one. -/
theorem Whole.look {E : Env} {S T : Store} (hT : NoCollision E T) (h : ∀ d ∈ S, d ∈ T) {i : Info} (hw : Whole E S i) :
    ∀ q, look E S i q = look E T i q := by
  induction hw with
  | @leaf i hi =>
    intro q
    cases q with
    | nil => rfl
    | cons n q => rw [Tree.look, Tree.look, if_neg hi, if_neg hi]
  | @tree id d l hr hp hl _ ih =>
    intro q
    cases q with
    | nil => rfl
    | cons n q =>
      rw [Tree.look, Tree.look, if_pos rfl, if_pos rfl, hr, Tree.retrieve_super hT h hr, Option.bind_some, Option.bind_some, hp,
        Option.bind_some, Option.bind_some]
      cases hf : l.find? fun e => e.name = n with
      | none => rfl
      | some e => exact ih e (List.mem_of_find?_eq_some hf) q

theorem Whole.canonical {E : Env} {S T : Store} (hT : NoCollision E T) (h : ∀ d ∈ S, d ∈ T) {i : Info} (hw : Whole E S i) :
    Canonical E T i → Canonical E S i := by
  induction hw with
  | leaf hi => exact fun _ => .leaf hi
  | @tree id d l hr hp hl _ ih =>
    intro hc
    generalize hi : (⟨.tree, id⟩ : Info) = i at hc
    cases hc with
    | leaf hn => exact absurd (by rw [← hi]) hn
    | @tree l' h1 h2 h3 h4 =>
      injection hi with _ hi
      obtain ⟨hd, he⟩ := Tree.retrieve_mem hr
      have : d = l'.flatMap Tree.gitText := hT _ (h d hd) _ h3 (he.trans hi)
      subst this
      rw [Tree.parseTree_texts h1.ok] at hp
      cases hp
      exact .tree h1 h2 hd fun e he => ih e he (h4 e he)

/-! ## Invariant -/

/-- Entries of the cache are right, with respect to all that ever was in the storage. -/
structure Good (E : Env) (U : Store) (b : Str) (k v : Str) : Prop where
  tree : Whole E U ⟨.tree, k⟩
  canonical : Canonical E U ⟨.tree, v⟩
  same : Structure E U b k v

structure Inv (E : Env) (U : Store) (b : Str) (s : State) : Prop where
  sub : ∀ d ∈ s.cas, d ∈ U
  whole : ∀ d ∈ s.cas, Whole E s.cas ⟨.tree, E.H d⟩
  good : ∀ g ∈ s.latest :: s.older, ∀ x ∈ g, Good E U b x.1 x.2

theorem Good.unique {E : Env} {U : Store} (hU : NoCollision E U) {b k v v' : Str} (h : Good E U b k v) (h' : Good E U b k v') :
    v = v' := by
  have := Canonical.eq hU h.canonical h'.canonical fun q => (h.same q).trans (h'.same q).symm
  injection this

theorem Inv.at {E : Env} {U : Store} {b : Str} {s : State} (h : Inv E U b s) {id : Str} (hi : In E s.cas id) :
    Whole E s.cas ⟨.tree, id⟩ := by
  obtain ⟨d, hd, rfl⟩ := hi
  exact h.whole d hd

theorem find_mem {g : Gen} {k v : Str} (h : g.find k = some v) : (k, v) ∈ g := by
  unfold Gen.find at h
  cases hf : g.find? fun x => x.1 = k with
  | none => rw [hf] at h; cases h
  | some x =>
    rw [hf] at h
    cases h
    have := List.mem_of_find?_eq_some hf
    have h1 : x.1 = k := by simpa using List.find?_some hf
    rw [← h1]
    exact this

theorem mem_add {g : Gen} {k v : Str} {x : Str × Str} (h : x ∈ g.add k v) : x ∈ g ∨ x = (k, v) := by
  unfold Gen.add at h
  split at h
  · exact .inl h
  · rcases List.mem_cons.1 h with h | h
    · exact .inr h
    · exact .inl h

theorem findIn_mem {k v : Str} : ∀ {l : List Gen}, findIn k l = some v → ∃ g ∈ l, (k, v) ∈ g
  | [], h => by cases h
  | g :: r, h => by
    rw [findIn] at h
    cases hg : g.find k with
    | some w =>
      rw [hg] at h
      cases h
      exact ⟨g, by simp, find_mem hg⟩
    | none =>
      rw [hg, Option.none_or] at h
      obtain ⟨g', h1, h2⟩ := findIn_mem h
      exact ⟨g', by simp [h1], h2⟩

theorem Inv.add {E : Env} {U : Store} {b : Str} {s : State} (h : Inv E U b s) {k v : Str} (hg : Good E U b k v) :
    Inv E U b { s with latest := s.latest.add k v } where
  sub := h.sub
  whole := h.whole
  good := by
    intro g hm x hx
    rcases List.mem_cons.1 hm with rfl | hm
    · rcases mem_add hx with hx | rfl
      · exact h.good s.latest (by simp) x hx
      · exact hg
    · exact h.good g (by simp [hm]) x hx

theorem cacheGet_spec {E : Env} {U : Store} {b k : Str} {s s' : State} {r : Option Str} (h : Inv E U b s)
    (hc : cacheGet E k s = (r, s')) : Inv E U b s' ∧ s'.cas = s.cas ∧ ∀ v, r = some v →
      Good E U b k v ∧ In E s.cas k ∧ In E s.cas v := by
  unfold cacheGet at hc
  split at hc
  · cases hc
    exact ⟨h, rfl, fun v e => (nomatch e)⟩
  · rename_i hk
    split at hc
    · cases hc
      exact ⟨h, rfl, fun v e => (nomatch e)⟩
    · rename_i v hf
      obtain ⟨g, h1, h2⟩ := findIn_mem hf
      have hg := h.good g h1 _ h2
      split at hc
      · cases hc
        exact ⟨h, rfl, fun v e => (nomatch e)⟩
      · rename_i hv
        cases hc
        refine ⟨h.add hg, rfl, fun w e => ?_⟩
        cases e
        exact ⟨hg, (in_retrieve k).2 hk, (in_retrieve v).2 hv⟩

theorem cacheSet_spec {E : Env} {U : Store} (hU : NoCollision E U) {b k v : Str} {s : State} (h : Inv E U b s)
    (hg : Good E U b k v) (hk : In E s.cas k) (hv : In E s.cas v) :
    ∃ s', cacheSet E k v s = (true, s') ∧ Inv E U b s' ∧ s'.cas = s.cas := by
  unfold cacheSet
  cases hc : cacheGet E k s with
  | mk r s' =>
    obtain ⟨h1, h2, h3⟩ := cacheGet_spec h hc
    cases r with
    | some w =>
      obtain ⟨g, _⟩ := h3 w rfl
      cases g.unique hU hg
      exact ⟨s', by simp, h1, h2⟩
    | none =>
      dsimp only
      rw [if_neg (not_or.2 ⟨h2 ▸ (in_retrieve k).1 hk, h2 ▸ (in_retrieve v).1 hv⟩)]
      exact ⟨_, rfl, h1.add hg, h2⟩

/-! ## Nothing gets lost -/

theorem cacheGet_cas (E : Env) (k : Str) (s : State) : (cacheGet E k s).2.cas = s.cas := by
  unfold cacheGet
  split
  · rfl
  · split
    · rfl
    · split <;> rfl

theorem cacheSet_cas (E : Env) (k v : Str) (s : State) : (cacheSet E k v s).2.cas = s.cas := by
  have h := cacheGet_cas E k s
  unfold cacheSet
  split
  · rename_i w s' hc
    rw [hc] at h
    exact h
  · rename_i s' hc
    rw [hc] at h
    split
    · exact h
    · exact h

theorem computeGo_mono {b : Str} {f : Str → State → Option Str × State} (hf : ∀ id s, ∀ d ∈ s.cas, d ∈ (f id s).2.cas) :
    ∀ (l : List Ent) (g : Groups) (s : State), ∀ d ∈ s.cas, d ∈ (computeGo b f l g s).2.cas
  | [], _, _ => fun _ hd => hd
  | e :: l, g, s => by
    intro d hd
    rw [computeGo]
    split
    · have := hf e.id s d hd
      cases hc : f e.id s with
      | mk r s' =>
        rw [hc] at this
        cases r with
        | none => exact this
        | some v => exact computeGo_mono hf l _ s' d this
    · exact computeGo_mono hf l _ s d hd

theorem compute_mono (E : Env) (b : Str) (ord : List Ent → List Ent) : ∀ (n : Nat) (id : Str) (s : State),
    ∀ d ∈ s.cas, d ∈ (compute E b ord n id s).2.cas
  | 0, _, _ => fun _ hd => hd
  | n + 1, id, s => by
    intro d hd
    rw [compute]
    have h := cacheGet_cas E id s
    cases hc : cacheGet E id s with
    | mk r s1 =>
      rw [hc] at h
      dsimp only at h
      cases r with
      | some v => exact h ▸ hd
      | none =>
        dsimp only
        split
        · exact h ▸ hd
        · rename_i l _
          have hm := computeGo_mono (b := b) (compute_mono E b ord n) (ord (flat (group l))) [] s1 d (h ▸ hd)
          cases hg : computeGo b (compute E b ord n) (ord (flat (group l))) [] s1 with
          | mk r s2 =>
            rw [hg] at hm
            cases r with
            | none => exact hm
            | some g =>
              dsimp only at hm ⊢
              have hs := cacheSet_cas E id (E.H (createTree g)) { s2 with cas := createTree g :: s2.cas }
              cases hc' : cacheSet E id (E.H (createTree g)) { s2 with cas := createTree g :: s2.cas } with
              | mk r s3 =>
                rw [hc'] at hs
                dsimp only at hs
                have : d ∈ s3.cas := by
                  rw [hs]
                  exact List.mem_cons_of_mem _ hm
                cases r <;> exact this

/-! ## Computing -/

/-- An entry of a tree, and the entry of the structure. -/
structure Rel (E : Env) (U cas : Store) (b : Str) (e e' : Ent) : Prop where
  name : e'.name = e.name
  type : e'.type = e.type
  tree : e.type = .tree → Good E U b e.id e'.id ∧ In E cas e'.id
  leaf : e.type ≠ .tree → e'.id = b

/-- What computing is to do with a tree. -/
def Works (E : Env) (U : Store) (b : Str) (f : Str → State → Option Str × State) : Prop :=
  ∀ (id : Str) (s s' : State) (r : Option Str), Inv E U b s → f id s = (r, s') → (∀ d ∈ s'.cas, d ∈ U) →
    Inv E U b s' ∧ ∀ v, r = some v → Good E U b id v ∧ In E s'.cas id ∧ In E s'.cas v

theorem Rel.mono {E : Env} {U cas cas' : Store} {b : Str} {e e' : Ent} (hs : ∀ d ∈ cas, d ∈ cas') (h : Rel E U cas b e e') :
    Rel E U cas' b e e' := ⟨h.name, h.type, fun ht => ⟨(h.tree ht).1, (h.tree ht).2.mono hs⟩, h.leaf⟩

theorem computeGo_spec {E : Env} {U : Store} {b : Str} {f : Str → State → Option Str × State}
    (hf : ∀ id s, ∀ d ∈ s.cas, d ∈ (f id s).2.cas) (hw : Works E U b f) :
    ∀ (l : List Ent) (g : Groups) (s s' : State) (r : Option Groups), Inv E U b s → computeGo b f l g s = (r, s') →
      (∀ d ∈ s'.cas, d ∈ U) → Inv E U b s' ∧ ∀ g', r = some g' →
        ∃ l', List.Forall₂ (Rel E U s'.cas b) l l' ∧ (flat g').Perm (flat g ++ l')
  | [], g, s, s', r, hi, hc, _ => by
    cases hc
    exact ⟨hi, fun g' e => by
      cases e
      exact ⟨[], .nil, by simp⟩⟩
  | e :: l, g, s, s', r, hi, hc, hu => by
    rw [computeGo] at hc
    have step : ∀ (v : Str) (s1 : State), (∀ d ∈ s1.cas, d ∈ s'.cas) → Rel E U s1.cas b e ⟨e.name, e.type, v⟩ → Inv E U b s1 →
        computeGo b f l (addTo v (e.name, e.type) g) s1 = (r, s') → Inv E U b s' ∧ ∀ g', r = some g' →
          ∃ l', List.Forall₂ (Rel E U s'.cas b) (e :: l) l' ∧ (flat g').Perm (flat g ++ l') := by
      intro v s1 hm hr h1 h2
      obtain ⟨k1, k2⟩ := computeGo_spec hf hw l _ s1 s' r h1 h2 hu
      refine ⟨k1, fun g' eg => ?_⟩
      obtain ⟨l', k3, k4⟩ := k2 g' eg
      refine ⟨_, .cons (hr.mono hm) k3, k4.trans ?_⟩
      refine ((Tree.flat_addTo v (e.name, e.type) g).append_right l').trans ?_
      simp
    split at hc
    · rename_i ht
      have hm := hf e.id s
      cases hc1 : f e.id s with
      | mk r1 s1 =>
        rw [hc1] at hc hm
        cases r1 with
        | none =>
          cases hc
          exact ⟨(hw e.id s s' none hi hc1 hu).1, fun g' e => (nomatch e)⟩
        | some v =>
          dsimp only at hc hm
          have hm1 : ∀ d ∈ s1.cas, d ∈ s'.cas := by
            have := computeGo_mono (b := b) hf l (addTo v (e.name, e.type) g) s1
            rw [hc] at this
            exact this
          obtain ⟨k1, k2⟩ := hw e.id s s1 (some v) hi hc1 fun d hd => hu d (hm1 d hd)
          obtain ⟨k3, k4, k5⟩ := k2 v rfl
          exact step v s1 hm1 ⟨rfl, rfl, fun _ => ⟨k3, k5⟩, fun hn => absurd ht hn⟩ k1 hc
    · rename_i ht
      have hm1 : ∀ d ∈ s.cas, d ∈ s'.cas := by
        have := computeGo_mono (b := b) hf l (addTo b (e.name, e.type) g) s
        rw [hc] at this
        exact this
      exact step b s hm1 ⟨rfl, rfl, fun h => absurd h ht, fun _ => rfl⟩ hi hc

theorem forall₂_mem {α β : Type} {R : α → β → Prop} {l : List α} {l' : List β} (h : List.Forall₂ R l l') :
    (∀ a ∈ l, ∃ b ∈ l', R a b) ∧ ∀ b ∈ l', ∃ a ∈ l, R a b := by
  induction h with
  | nil => exact ⟨fun _ h => (nomatch h), fun _ h => (nomatch h)⟩
  | @cons a b l l' hr _ ih =>
    refine ⟨fun x hx => ?_, fun y hy => ?_⟩
    · rcases List.mem_cons.1 hx with rfl | hx
      · exact ⟨b, by simp, hr⟩
      · obtain ⟨y, h1, h2⟩ := ih.1 x hx
        exact ⟨y, by simp [h1], h2⟩
    · rcases List.mem_cons.1 hy with rfl | hy
      · exact ⟨a, by simp, hr⟩
      · obtain ⟨x, h1, h2⟩ := ih.2 y hy
        exact ⟨x, by simp [h1], h2⟩

/-- What is in a directory, given by its listing. -/
theorem look_tree {E : Env} {S : Store} {id d : Str} {l : List Ent} (hr : retrieve E S id = some d) (hp : parseTree d = some l)
    (n : Str) (q : List Str) : look E S ⟨.tree, id⟩ (n :: q) =
      (l.find? fun e => e.name = n).bind fun e => look E S ⟨e.type, e.id⟩ q := by
  rw [Tree.look, if_pos rfl, hr, Option.bind_some, hp, Option.bind_some]

theorem find_of_mem {l : List Ent} (h : (l.map Ent.name).Nodup) {e : Ent} (he : e ∈ l) :
    (l.find? fun x => x.name = e.name) = some e := by
  induction l with
  | nil => cases he
  | cons a l ih =>
    simp only [List.map_cons, List.nodup_cons] at h
    rw [List.find?_cons]
    rcases List.mem_cons.1 he with rfl | he
    · simp
    · have : a.name ≠ e.name := fun hn => h.1 (by rw [hn]; exact List.mem_map_of_mem he)
      simp only [this, decide_false]
      exact ih h.2 he

theorem leaf_look {E : Env} {S : Store} {b : Str} {ty : ObjectType} {id : Str} (h : ty ≠ .tree) (q : List Str) :
    look E S ⟨ty, b⟩ q = (look E S ⟨ty, id⟩ q).map (blank b) := by
  cases q with
  | nil =>
    rw [Tree.look, Tree.look, if_neg h, if_neg h]
    rfl
  | cons n q =>
    rw [Tree.look, Tree.look, if_neg h, if_neg h]
    rfl

/-- The tree created is the structure. -/
theorem created {E : Env} (hE : E.OK) {U : Store} (hU : NoCollision E U) {b : Str} (hb : b.length = 20) {cas : Store}
    (hc : ∀ d ∈ cas, d ∈ U) {id d : Str} {l es l' : List Ent} {g : Groups} (hr : retrieve E cas id = some d)
    (hp : parseTree d = some l) (hl : Listing l) (hes : es.Perm l) (h2 : List.Forall₂ (Rel E U cas b) es l')
    (hg : (flat g).Perm l') (hm : createTree g ∈ U) (hw : Whole E U ⟨.tree, id⟩) :
    Listing (flat g) ∧ Good E U b id (E.H (createTree g)) := by
  have hn : l'.map Ent.name = es.map Ent.name := by
    clear hg hes
    induction h2 with
    | nil => rfl
    | cons hr _ ih => rw [List.map_cons, List.map_cons, hr.name, ih]
  have hle : Listing es := hl.perm hes.symm
  obtain ⟨m1, m2⟩ := forall₂_mem h2
  have hl' : Listing l' := by
    refine ⟨fun e' he' => ?_, by rw [hn]; exact hle.names⟩
    obtain ⟨e, he, r⟩ := m2 e' he'
    have ho := hle.ok e he
    refine ⟨r.name ▸ ho.nonempty, r.name ▸ ho.noZero, r.name ▸ ho.noSlash, r.name ▸ ho.short, ?_⟩
    by_cases ht : e.type = .tree
    · obtain ⟨_, x, _, hx⟩ := r.tree ht
      rw [← hx]
      exact hE.length x
    · rw [r.leaf ht]
      exact hb
  have hlg : Listing (flat g) := hl'.perm hg.symm
  refine ⟨hlg, hw, canonical_created hlg hm fun e' he' => ?_, fun q => ?_⟩
  · obtain ⟨e, he, r⟩ := m2 e' (hg.mem_iff.1 he')
    by_cases ht : e.type = .tree
    · have := (r.tree ht).1.canonical
      rwa [← ht, ← r.type] at this
    · exact .leaf (r.type ▸ ht)
  · obtain ⟨lc, c1, _, _, c4, _⟩ := Tree.C32_round_trip g hlg
    cases q with
    | nil => rfl
    | cons n q =>
      rw [look_tree (Tree.retrieve_hash hU hm) c4, look_tree (Tree.retrieve_super hU hc hr) hp]
      have hlc : Listing lc := hlg.perm c1.symm
      cases hf : l.find? fun e => e.name = n with
      | none =>
        have : (lc.find? fun e => e.name = n) = none := by
          rw [List.find?_eq_none]
          intro e' he'
          obtain ⟨e, he, r⟩ := m2 e' (hg.mem_iff.1 (c1.mem_iff.1 he'))
          have := List.find?_eq_none.1 hf e (hes.mem_iff.1 he)
          rw [r.name]
          exact this
        rw [this]
        rfl
      | some e =>
        have he := List.mem_of_find?_eq_some hf
        have hen : e.name = n := by simpa using List.find?_some hf
        obtain ⟨e', he', r⟩ := m1 e (hes.mem_iff.2 he)
        have hf' : (lc.find? fun e => e.name = n) = some e' := by
          rw [← hen, ← r.name]
          exact find_of_mem hlc.names (c1.mem_iff.2 (hg.mem_iff.2 he'))
        rw [hf', Option.bind_some, Option.bind_some, r.type]
        by_cases ht : e.type = .tree
        · rw [ht]
          exact (r.tree ht).1.same q
        · rw [r.leaf ht]
          exact leaf_look ht q

theorem Inv.store {E : Env} {U : Store} (hU : NoCollision E U) {b : Str} {s : State} (h : Inv E U b s) {d : Str} {l : List Ent}
    (hd : d ∈ U) (hp : parseTree d = some l) (hl : Listing l) (hs : ∀ e ∈ l, e.type = .tree → In E s.cas e.id) :
    Inv E U b { s with cas := d :: s.cas } := by
  have hsub : ∀ x ∈ d :: s.cas, x ∈ U := fun x hx => (List.mem_cons.1 hx).elim (fun e => e ▸ hd) (h.sub x)
  have hN : NoCollision E (d :: s.cas) := fun a ha c hc => hU a (hsub a ha) c (hsub c hc)
  refine ⟨hsub, fun x hx => ?_, h.good⟩
  rcases List.mem_cons.1 hx with rfl | hx
  · refine .tree (Tree.retrieve_hash hN (by simp)) hp hl fun e he => ?_
    by_cases ht : e.type = .tree
    · rw [ht]
      exact (h.at (hs e he ht)).super hN fun y hy => List.mem_cons_of_mem _ hy
    · exact .leaf ht
  · exact (h.whole x hx).super hN fun y hy => List.mem_cons_of_mem _ hy

theorem Whole.listing {E : Env} {S : Store} {id d : Str} {l : List Ent} (h : Whole E S ⟨.tree, id⟩)
    (hr : retrieve E S id = some d) (hp : parseTree d = some l) : Listing l ∧ ∀ e ∈ l, Whole E S ⟨e.type, e.id⟩ := by
  generalize hi : (⟨.tree, id⟩ : Info) = i at h
  cases h with
  | leaf hn => exact absurd (by rw [← hi]) hn
  | tree h1 h2 h3 h4 =>
    injection hi with _ hi
    subst hi
    cases hr.symm.trans h1
    cases hp.symm.trans h2
    exact ⟨h3, h4⟩

theorem compute_works {E : Env} (hE : E.OK) {U : Store} (hU : NoCollision E U) {b : Str} (hb : b.length = 20)
    {ord : List Ent → List Ent} (ho : ∀ l, (ord l).Perm l) : ∀ n, Works E U b (compute E b ord n)
  | 0 => by
    intro id s s' r hi hc _
    cases hc
    exact ⟨hi, fun v e => (nomatch e)⟩
  | n + 1 => by
    intro id s s' r hi hc hu
    rw [compute] at hc
    cases hc1 : cacheGet E id s with
    | mk r1 s1 =>
      obtain ⟨i1, e1, g1⟩ := cacheGet_spec hi hc1
      rw [hc1] at hc
      cases r1 with
      | some v =>
        cases hc
        refine ⟨i1, fun w e => ?_⟩
        cases e
        rw [e1]
        exact g1 v rfl
      | none =>
        dsimp only at hc
        cases hr : retrieve E s1.cas id with
        | none =>
          rw [hr] at hc
          cases hc
          exact ⟨i1, fun v e => (nomatch e)⟩
        | some d =>
          rw [hr, Option.bind_some] at hc
          cases hp : parseTree d with
          | none =>
            rw [hp] at hc
            cases hc
            exact ⟨i1, fun v e => (nomatch e)⟩
          | some l =>
            rw [hp] at hc
            dsimp only at hc
            have hin : In E s1.cas id := (in_retrieve id).2 (by rw [hr]; exact (nomatch ·))
            have hm := computeGo_mono (b := b) (compute_mono E b ord n) (ord (flat (group l))) [] s1
            cases hg : computeGo b (compute E b ord n) (ord (flat (group l))) [] s1 with
            | mk r2 s2 =>
              rw [hg] at hc hm
              cases r2 with
              | none =>
                cases hc
                exact ⟨(computeGo_spec (compute_mono E b ord n) (compute_works hE hU hb ho n) _ _ _ _ _ i1 hg hu).1,
                  fun v e => (nomatch e)⟩
              | some g =>
                dsimp only at hc hm
                have hs := cacheSet_cas E id (E.H (createTree g)) { s2 with cas := createTree g :: s2.cas }
                have hu' : ∀ x ∈ createTree g :: s2.cas, x ∈ U := by
                  cases hc' : cacheSet E id (E.H (createTree g)) { s2 with cas := createTree g :: s2.cas } with
                  | mk r3 s3 =>
                    rw [hc'] at hc hs
                    dsimp only at hs
                    cases r3 <;> cases hc <;> rw [← hs] <;> exact hu
                obtain ⟨i2, g2⟩ := computeGo_spec (compute_mono E b ord n) (compute_works hE hU hb ho n) _ _ _ _ _ i1 hg
                  fun x hx => hu' x (List.mem_cons_of_mem _ hx)
                obtain ⟨l', k1, k2⟩ := g2 g rfl
                rw [show flat [] = ([] : List Ent) from rfl, List.nil_append] at k2
                have hw1 := i1.at hin
                have hl := (hw1.listing hr hp).1
                have hcm : createTree g ∈ U := hu' _ (by simp)
                have hN2 : NoCollision E s2.cas := fun a ha c hc => hU a (i2.sub a ha) c (i2.sub c hc)
                obtain ⟨q1, q2⟩ := created hE hU hb i2.sub (Tree.retrieve_super hN2 hm hr) hp hl
                  ((ho _).trans (Tree.flat_group l)) k1 k2 hcm (hw1.super hU i1.sub)
                obtain ⟨lc, c1, _, _, c4, _⟩ := Tree.C32_round_trip g q1
                have i3 : Inv E U b { s2 with cas := createTree g :: s2.cas } := by
                  refine i2.store hU hcm c4 (q1.perm c1.symm) fun e he ht => ?_
                  obtain ⟨e0, _, r0⟩ := (forall₂_mem k1).2 e (k2.mem_iff.1 (c1.mem_iff.1 he))
                  exact (r0.tree (r0.type ▸ ht)).2
                have hv : In E (createTree g :: s2.cas) (E.H (createTree g)) := ⟨_, by simp, rfl⟩
                have hk : In E (createTree g :: s2.cas) id := hin.mono fun x hx => List.mem_cons_of_mem _ (hm x hx)
                obtain ⟨s3, e3, i4, e4⟩ := cacheSet_spec hU i3 q2 hk hv
                rw [e3] at hc
                cases hc
                refine ⟨i4, fun w e => ?_⟩
                cases e
                rw [e4]
                exact ⟨q2, hk, hv⟩

theorem Whole.collect {E : Env} {S T : Store} (hS : NoCollision E S) (hsub : ∀ d ∈ T, d ∈ S)
    (hc : ∀ d ∈ T, ∀ l, parseTree d = some l → ∀ e ∈ l, e.type = .tree → In E T e.id) {i : Info} (h : Whole E S i) :
    (i.type = .tree → In E T i.id) → Whole E T i := by
  induction h with
  | leaf h => exact fun _ => .leaf h
  | @tree id d l hr hp hl _ ih =>
    intro hi
    obtain ⟨x, hx⟩ := in_some (hi rfl)
    have : x = d := Option.some.inj ((Tree.retrieve_super hS hsub hx).symm.trans hr)
    subst this
    exact .tree hx hp hl fun e he => ih e he (hc x (Tree.retrieve_mem hx).1 l hp e he)

theorem Reach.inv {E : Env} (hE : E.OK) {U : Store} (hU : NoCollision E U) {b : Str} (hb : b.length = 20)
    {ord : List Ent → List Ent} (ho : ∀ l, (ord l).Perm l) {s : State} (h : Reach E U b ord s) : Inv E U b s := by
  induction h with
  | start k =>
    refine ⟨fun d hd => (nomatch hd), fun d hd => (nomatch hd), fun g hg x hx => ?_⟩
    rcases List.mem_cons.1 hg with rfl | hg
    · cases hx
    · rw [List.eq_of_mem_replicate hg] at hx
      cases hx
  | store _ h1 h2 h3 h4 ih => exact ih.store hU h1 h2 h3 h4
  | compute n id _ h1 ih => exact (compute_works hE hU hb ho n id _ _ _ ih rfl h1).1
  | @collect s cas _ h1 h2 ih =>
    have hN : NoCollision E s.cas := fun a ha c hc => hU a (ih.sub a ha) c (ih.sub c hc)
    exact ⟨fun d hd => ih.sub d (h1 d hd), fun d hd => (ih.whole d (h1 d hd)).collect hN h1 h2 fun _ => ⟨d, hd, rfl⟩, ih.good⟩
  | @rotate s _ ih =>
    refine ⟨ih.sub, ih.whole, fun g hg x hx => ?_⟩
    rcases List.mem_cons.1 hg with rfl | hg
    · cases hx
    · exact ih.good g (List.dropLast_subset _ hg) x hx

/-! ## Properties -/

/-- **C81.** The structure that is computed for a tree, or taken from the cache, has the same directories and files of the same
type as the tree, all of them empty; it is in the storage as git would write it, and nothing is removed from the storage. -/
theorem C81_structure {E : Env} (hE : E.OK) {U : Store} (hU : NoCollision E U) {b : Str} (hb : b.length = 20)
    {ord : List Ent → List Ent} (ho : ∀ l, (ord l).Perm l) {s s' : State} (hs : Reach E U b ord s) {n : Nat} {id v : Str}
    (hc : compute E b ord n id s = (some v, s')) (hu : ∀ d ∈ s'.cas, d ∈ U) :
    (∀ q, look E s'.cas ⟨.tree, v⟩ q = (look E s'.cas ⟨.tree, id⟩ q).map (blank b)) ∧ In E s'.cas v ∧ In E s.cas id ∧
    Canonical E s'.cas ⟨.tree, v⟩ ∧ ∀ d ∈ s.cas, d ∈ s'.cas := by
  have hi := hs.inv hE hU hb ho
  obtain ⟨i', g⟩ := compute_works hE hU hb ho n id s s' _ hi hc hu
  obtain ⟨g1, g2, g3⟩ := g v rfl
  have hm := compute_mono E b ord n id s
  rw [hc] at hm
  have wv := i'.at g3
  have wk := i'.at g2
  refine ⟨fun q => ?_, g3, ?_, wv.canonical hU i'.sub g1.canonical, hm⟩
  · rw [wv.look hU i'.sub, wk.look hU i'.sub]
    exact g1.same q
  · -- a tree that is not there is an error
    refine (in_retrieve id).2 fun hn => ?_
    have h0 : cacheGet E id s = (none, s) := by
      unfold cacheGet
      rw [if_pos hn]
    cases n with
    | zero => cases hc
    | succ n =>
      rw [compute, h0] at hc
      dsimp only at hc
      rw [hn] at hc
      cases hc

/-- **C81.** Trees have the same structure if and only if they have the same directories and files, up to content; no matter what is
in the cache and which trees are in the storage. -/
theorem C81_same {E : Env} (hE : E.OK) {U : Store} (hU : NoCollision E U) {b : Str} (hb : b.length = 20)
    {ord : List Ent → List Ent} (ho : ∀ l, (ord l).Perm l) {s1 s1' s2 s2' : State} (hs1 : Reach E U b ord s1)
    (hs2 : Reach E U b ord s2) {n1 n2 : Nat} {id1 id2 v1 v2 : Str} (hc1 : compute E b ord n1 id1 s1 = (some v1, s1'))
    (hc2 : compute E b ord n2 id2 s2 = (some v2, s2')) (hu1 : ∀ d ∈ s1'.cas, d ∈ U) (hu2 : ∀ d ∈ s2'.cas, d ∈ U) :
    v1 = v2 ↔ ∀ q, (look E s1.cas ⟨.tree, id1⟩ q).map (blank b) = (look E s2.cas ⟨.tree, id2⟩ q).map (blank b) := by
  have i1 := hs1.inv hE hU hb ho
  have i2 := hs2.inv hE hU hb ho
  obtain ⟨_, g1⟩ := compute_works hE hU hb ho n1 id1 s1 s1' _ i1 hc1 hu1
  obtain ⟨_, g2⟩ := compute_works hE hU hb ho n2 id2 s2 s2' _ i2 hc2 hu2
  obtain ⟨k1, _, _⟩ := g1 v1 rfl
  obtain ⟨k2, _, _⟩ := g2 v2 rfl
  have w1 := i1.at (C81_structure hE hU hb ho hs1 hc1 hu1).2.2.1
  have w2 := i2.at (C81_structure hE hU hb ho hs2 hc2 hu2).2.2.1
  have e : (∀ q, (look E s1.cas ⟨.tree, id1⟩ q).map (blank b) = (look E s2.cas ⟨.tree, id2⟩ q).map (blank b)) ↔
      ∀ q, look E U ⟨.tree, v1⟩ q = look E U ⟨.tree, v2⟩ q := by
    refine forall_congr' fun q => ?_
    rw [k1.same q, k2.same q, w1.look hU i1.sub, w2.look hU i2.sub]
  rw [e]
  refine ⟨fun h q => by rw [h], fun h => ?_⟩
  have := Canonical.eq hU k1.canonical k2.canonical h
  injection this

theorem blank_blank (b : Str) (o : Obs) : blank b (blank b o) = blank b o := by
  cases o <;> rfl

/-- **C81.** The structure of a structure is the structure itself. -/
theorem C81_fixed {E : Env} (hE : E.OK) {U : Store} (hU : NoCollision E U) {b : Str} (hb : b.length = 20)
    {ord : List Ent → List Ent} (ho : ∀ l, (ord l).Perm l) {s s' s'' : State} (hs : Reach E U b ord s) {n n' : Nat} {id v w : Str}
    (hc : compute E b ord n id s = (some v, s')) (hu : ∀ d ∈ s'.cas, d ∈ U) (hc' : compute E b ord n' v s' = (some w, s''))
    (hu' : ∀ d ∈ s''.cas, d ∈ U) : w = v := by
  have hs' : Reach E U b ord s' := by
    have := hs.compute n id (by rw [hc]; exact hu)
    rwa [hc] at this
  have i' := hs'.inv hE hU hb ho
  obtain ⟨_, g1⟩ := compute_works hE hU hb ho n id s s' _ (hs.inv hE hU hb ho) hc hu
  obtain ⟨_, g2⟩ := compute_works hE hU hb ho n' v s' s'' _ i' hc' hu'
  obtain ⟨k1, _, _⟩ := g1 v rfl
  obtain ⟨k2, _, _⟩ := g2 w rfl
  have := Canonical.eq hU k2.canonical k1.canonical fun q => by
    rw [k2.same, k1.same, Option.map_map]
    congr 1
    funext o
    exact blank_blank b o
  injection this

theorem bound_all {α : Type} {Q : α → Nat → Prop} : ∀ l : List α, (∀ e ∈ l, ∃ N, ∀ n, N ≤ n → Q e n) →
    ∃ N, ∀ n, N ≤ n → ∀ e ∈ l, Q e n
  | [], _ => ⟨0, fun _ _ _ h => (nomatch h)⟩
  | a :: l, h => by
    obtain ⟨N, hN⟩ := h a (by simp)
    obtain ⟨M, hM⟩ := bound_all l fun e he => h e (by simp [he])
    refine ⟨N + M, fun n hn e he => ?_⟩
    rcases List.mem_cons.1 he with rfl | he
    · exact hN n (by omega)
    · exact hM n (by omega) e he

theorem computeGo_ok {E : Env} {U : Store} {b : Str} {f : Str → State → Option Str × State}
    (hf : ∀ id s, ∀ d ∈ s.cas, d ∈ (f id s).2.cas) (hw : Works E U b f) : ∀ (l : List Ent) (g : Groups) (s : State),
      (∀ e ∈ l, e.type = .tree → ∀ s0, Inv E U b s0 → In E s0.cas e.id → (∀ d ∈ (f e.id s0).2.cas, d ∈ U) → (f e.id s0).1 ≠ none) →
      Inv E U b s → (∀ e ∈ l, e.type = .tree → In E s.cas e.id) → (∀ d ∈ (computeGo b f l g s).2.cas, d ∈ U) →
      (computeGo b f l g s).1 ≠ none
  | [], g, s, _, _, _, _ => (nomatch ·)
  | e :: l, g, s, h, hi, hin, hu => by
    have ih := fun (v : Str) (s1 : State) => computeGo_ok hf hw l (addTo v (e.name, e.type) g) s1 fun e he => h e (by simp [he])
    rw [computeGo] at hu ⊢
    by_cases ht : e.type = .tree
    · rw [if_pos ht] at hu ⊢
      have hm := hf e.id s
      have he := h e (by simp) ht s hi (hin e (by simp) ht)
      cases hc : f e.id s with
      | mk r s1 =>
        rw [hc] at hu he hm
        cases r with
        | none => exact absurd rfl (he hu)
        | some v =>
          dsimp only at hu hm ⊢
          refine ih v s1 (hw e.id s s1 (some v) hi hc fun d hd => hu d ?_).1 (fun e he ht => (hin e (by simp [he]) ht).mono hm) hu
          exact computeGo_mono hf l _ s1 d hd
    · rw [if_neg ht] at hu ⊢
      exact ih b s hi (fun e he => hin e (by simp [he])) hu

/-- **C81.** The computation succeeds for every tree in the storage. -/
theorem C81_success {E : Env} (hE : E.OK) {U : Store} (hU : NoCollision E U) {b : Str} (hb : b.length = 20)
    {ord : List Ent → List Ent} (ho : ∀ l, (ord l).Perm l) {s : State} (hs : Reach E U b ord s) {id : Str} (hin : In E s.cas id) :
    ∃ N, ∀ n, N ≤ n → (∀ d ∈ (compute E b ord n id s).2.cas, d ∈ U) → ∃ v, (compute E b ord n id s).1 = some v := by
  have hi := hs.inv hE hU hb ho
  have key : ∀ i, Whole E U i → i.type = .tree → ∃ N, ∀ n, N ≤ n → ∀ s, Inv E U b s → In E s.cas i.id →
      (∀ d ∈ (compute E b ord n i.id s).2.cas, d ∈ U) → (compute E b ord n i.id s).1 ≠ none := by
    intro i hw
    induction hw with
    | leaf h => exact fun ht => absurd ht h
    | @tree id d l hr hp hl _ ih =>
      intro _
      obtain ⟨N, hN⟩ := bound_all (Q := fun (e : Ent) n => e.type = .tree → ∀ s, Inv E U b s → In E s.cas e.id →
        (∀ d ∈ (compute E b ord n e.id s).2.cas, d ∈ U) → (compute E b ord n e.id s).1 ≠ none) l fun e he => by
          by_cases ht : e.type = .tree
          · obtain ⟨N, h⟩ := ih e he ht
            exact ⟨N, fun n hn _ => h n hn⟩
          · exact ⟨0, fun n _ h => absurd h ht⟩
      refine ⟨N + 1, fun n hn s hi hin hu => ?_⟩
      obtain ⟨n, rfl⟩ : ∃ m, n = m + 1 := ⟨n - 1, by omega⟩
      dsimp only at hin hu ⊢
      rw [compute] at hu ⊢
      cases hc1 : cacheGet E id s with
      | mk r1 s1 =>
        obtain ⟨i1, e1, g1⟩ := cacheGet_spec hi hc1
        rw [hc1] at hu
        cases r1 with
        | some v => exact (nomatch ·)
        | none =>
          dsimp only at hu ⊢
          rw [← e1] at hin
          obtain ⟨x, hx⟩ := in_some hin
          have hxd : x = d := Option.some.inj ((Tree.retrieve_super hU i1.sub hx).symm.trans hr)
          subst hxd
          rw [hx, Option.bind_some, hp] at hu ⊢
          dsimp only at hu ⊢
          have hperm := (ho (flat (group l))).trans (Tree.flat_group l)
          have hw1 := i1.at hin
          obtain ⟨hl, hwe⟩ := hw1.listing hx hp
          have hm := computeGo_mono (b := b) (compute_mono E b ord n) (ord (flat (group l))) [] s1
          have hok := computeGo_ok (compute_mono E b ord n) (compute_works hE hU hb ho n) (ord (flat (group l))) [] s1
            (fun e he ht s0 => hN n (by omega) e (hperm.mem_iff.1 he) ht s0) i1 fun e he ht => by
              have := hwe e (hperm.mem_iff.1 he)
              generalize hie : (⟨e.type, e.id⟩ : Info) = ie at this
              cases this with
              | leaf hn => exact absurd (by rw [← hie]; exact ht) hn
              | tree h1 =>
                injection hie with _ hie
                exact (in_retrieve _).2 (by rw [hie, h1]; exact (nomatch ·))
          cases hg : computeGo b (compute E b ord n) (ord (flat (group l))) [] s1 with
          | mk r2 s2 =>
            rw [hg] at hu hm hok
            cases r2 with
            | none => exact absurd rfl (hok hu)
            | some g =>
              dsimp only at hu hm hok ⊢
              have hs := cacheSet_cas E id (E.H (createTree g)) { s2 with cas := createTree g :: s2.cas }
              have hu' : ∀ x ∈ createTree g :: s2.cas, x ∈ U := by
                cases hc' : cacheSet E id (E.H (createTree g)) { s2 with cas := createTree g :: s2.cas } with
                | mk r3 s3 =>
                  rw [hc'] at hu hs
                  cases r3 <;> dsimp only at hu hs <;> rw [← hs] <;> exact hu
              obtain ⟨i2, g2⟩ := computeGo_spec (compute_mono E b ord n) (compute_works hE hU hb ho n) _ _ _ _ _ i1 hg
                fun x hx => hu' x (List.mem_cons_of_mem _ hx)
              obtain ⟨l', k1, k2⟩ := g2 g rfl
              rw [show flat [] = ([] : List Ent) from rfl, List.nil_append] at k2
              have hcm : createTree g ∈ U := hu' _ (by simp)
              have hN2 : NoCollision E s2.cas := fun a ha c hc => hU a (i2.sub a ha) c (i2.sub c hc)
              obtain ⟨q1, q2⟩ := created hE hU hb i2.sub (Tree.retrieve_super hN2 hm hx) hp hl hperm k1 k2 hcm
                (hw1.super hU i1.sub)
              obtain ⟨lc, c1, _, _, c4, _⟩ := Tree.C32_round_trip g q1
              have i3 : Inv E U b { s2 with cas := createTree g :: s2.cas } := by
                refine i2.store hU hcm c4 (q1.perm c1.symm) fun e he ht => ?_
                obtain ⟨e0, _, r0⟩ := (forall₂_mem k1).2 e (k2.mem_iff.1 (c1.mem_iff.1 he))
                exact (r0.tree (r0.type ▸ ht)).2
              obtain ⟨s3, e3, _⟩ := cacheSet_spec hU i3 q2 (hin.mono fun x hx => List.mem_cons_of_mem _ (hm x hx))
                ⟨_, by simp, rfl⟩
              rw [e3]
              exact (nomatch ·)
  obtain ⟨N, hN⟩ := key ⟨.tree, id⟩ ((hi.at hin).super hU hi.sub) rfl
  exact ⟨N, fun n hn hu => Option.ne_none_iff_exists'.1 (hN n hn s hi hin hu)⟩

end Verif.Struct
