import Verif.Repo.ArtifactsRoot
import Verif.Tree.Lemmas
import Verif.Stage.Lemmas
import Verif.Symlinks.Lemmas

/-!
# Roots computed from artifacts (C79)
-/

namespace Verif.Roots

open Verif.Dig (ObjectType)
open Verif.Path
open Verif.Tree (Groups Info Obs Env Store Listing NoCollision Ent flat look get addTo createTree retrieve)

/-! ## Specification -/

/-- A name git can represent. -/
structure Name (a : Str) : Prop where
  proper : ProperName a
  noZero : ∀ c ∈ a, c.toNat ≠ 0
  short : a.length ≤ 65535

/-- The function from paths to what is there: artifacts at their place, directories above them, and nothing else. -/
structure Content (E : Env) (S : Store) (P : List (List Str × Info)) (f : List Str → Option Obs) : Prop where
  artifact : ∀ x ∈ P, ∀ q, f (x.1 ++ q) = look E S x.2 q
  above : ∀ p, (p = [] ∨ ∃ x ∈ P, p <+: x.1 ∧ p ≠ x.1) → f p = some .dir
  nothing : ∀ p, p ≠ [] → (∀ x ∈ P, ¬ p <+: x.1 ∧ ¬ x.1 <+: p) → f p = none

/-- A stage as it can occur, with the paths of the artifacts: paths have at least one name, no artifact is above
another one, and objects have ids of the right length. -/
structure Staged (stage : OMap Str (Option Info)) (P : List (List Str × Info)) : Prop where
  items : stage.items = P.map fun x => (joinWith '/' x.1, some x.2)
  nonempty : ∀ x ∈ P, x.1 ≠ []
  names : ∀ x ∈ P, ∀ a ∈ x.1, Name a
  free : ∀ x ∈ P, ∀ y ∈ P, x.1 <+: y.1 → x.1 = y.1
  ids : ∀ x ∈ P, x.2.id.length = 20

/-- Trees as git writes them, all the way down. -/
inductive Canonical (E : Env) (S : Store) : Info → Prop
  | leaf {i : Info} : i.type ≠ .tree → Canonical E S i
  | tree {l : List Ent} : Listing l → l.Pairwise (fun a b => Tree.gitName a < Tree.gitName b) →
    l.flatMap Tree.gitText ∈ S → (∀ e ∈ l, Canonical E S ⟨e.type, e.id⟩) →
    Canonical E S ⟨.tree, E.H (l.flatMap Tree.gitText)⟩

/-! ## Directories -/

/-- The entries of a tree. -/
def entries (g : Groups) : Tree.Entries := (flat g).map Ent.pair

/-- What is in a directory with the given entries. -/
def lookIn (E : Env) (S : Store) (g : Groups) : List Str → Option Obs
  | [] => some .dir
  | n :: q => (get n (entries g)).bind fun i => look E S i q

/-- What is in a directory with the given entries, and a subdirectory. -/
def node (E : Env) (S : Store) (g : Groups) (d : Str) (f : List Str → Option Obs) : List Str → Option Obs
  | [] => some .dir
  | n :: q => if n = d then f q else lookIn E S g (n :: q)

theorem lookIn_cons (E : Env) (S : Store) (g : Groups) (n : Str) (q : List Str) :
    lookIn E S g (n :: q) = (get n (entries g)).bind fun i => look E S i q := rfl

theorem node_cons (E : Env) (S : Store) (g : Groups) (d : Str) (f : List Str → Option Obs) (n : Str) (q : List Str) :
    node E S g d f (n :: q) = if n = d then f q else lookIn E S g (n :: q) := rfl

/-- The same for all directories above. -/
def plug (E : Env) (S : Store) (f : List Str → Option Obs) : List (Groups × Str) → List Str → Option Obs
  | [] => f
  | x :: r => plug E S (node E S x.1 x.2 f) r

/-- The current directory. -/
def place (r : List (Groups × Str)) : List Str := (r.map Prod.snd).reverse

theorem plug_at (E : Env) (S : Store) : ∀ (r : List (Groups × Str)) (f : List Str → Option Obs) (q : List Str),
    plug E S f r (place r ++ q) = f q
  | [], _, _ => rfl
  | x :: r, f, q => by
    have : place (x :: r) ++ q = place r ++ x.2 :: q := by
      unfold place
      rw [List.map_cons, List.reverse_cons, List.append_assoc]
      rfl
    rw [this, plug, plug_at E S r, node, if_pos rfl]

theorem plug_off (E : Env) (S : Store) : ∀ (r : List (Groups × Str)) (f f' : List Str → Option Obs) (p : List Str),
    ¬ place r <+: p → plug E S f r p = plug E S f' r p
  | [], _, _, p, h => absurd (List.nil_prefix) h
  | x :: r, f, f', p, h => by
    rw [plug, plug]
    by_cases hp : place r <+: p
    · obtain ⟨q, rfl⟩ := hp
      rw [plug_at, plug_at]
      cases q with
      | nil => rfl
      | cons n q =>
        rw [node_cons, node_cons, if_neg, if_neg]
        all_goals
          rintro rfl
          apply h
          unfold place
          rw [List.map_cons, List.reverse_cons, List.append_cons _ _ q]
          exact List.prefix_append _ _
    · exact plug_off E S r _ _ p hp

theorem entries_nodup {g : Groups} (h : Listing (flat g)) : ((entries g).map Prod.fst).Nodup := by
  unfold entries
  rw [List.map_map]
  exact h.names

theorem entries_addTo (id : Str) (nt : Str × ObjectType) (g : Groups) :
    (entries (addTo id nt g)).Perm (entries g ++ [(nt.1, ⟨nt.2, id⟩)]) := by
  have := (Tree.flat_addTo id nt g).map Ent.pair
  rw [List.map_append] at this
  exact this

theorem listing_addTo {g : Groups} (h : Listing (flat g)) {id n : Str} {ty : ObjectType} (hn : Name n)
    (hi : id.length = 20) (hg : get n (entries g) = none) : Listing (flat (addTo id (n, ty) g)) := by
  refine Listing.perm (l := flat g ++ [⟨n, ty, id⟩]) ⟨fun e he => ?_, ?_⟩ (Tree.flat_addTo id (n, ty) g).symm
  · rcases List.mem_append.1 he with he | he
    · exact h.ok e he
    · rw [List.mem_singleton.1 he]
      exact ⟨hn.proper.2.1, hn.noZero, hn.proper.1, hn.short, hi⟩
  · rw [List.map_append, List.nodup_append]
    refine ⟨h.names, by simp, fun a ha b hb e => ?_⟩
    obtain ⟨x, hx, rfl⟩ := List.mem_map.1 ha
    rw [List.map_singleton, List.mem_singleton] at hb
    exact Tree.get_none.1 hg x.pair (List.mem_map_of_mem hx) (e.trans hb)

theorem get_addTo {g : Groups} (h : Listing (flat g)) {id n : Str} {ty : ObjectType} (hn : Name n)
    (hi : id.length = 20) (hg : get n (entries g) = none) (m : Str) :
    get m (entries (addTo id (n, ty) g)) = if m = n then some ⟨ty, id⟩ else get m (entries g) := by
  rw [Tree.get_perm (entries_nodup (listing_addTo h hn hi hg)) (entries_addTo id (n, ty) g), Tree.get_append]
  split
  · rename_i e
    subst e
    rw [hg]
    simp [Tree.get]
  · rename_i e
    have : Tree.get m [(n, (⟨ty, id⟩ : Info))] = none := by
      unfold Tree.get
      rw [if_neg (fun e' => e e'.symm)]
      rfl
    dsimp only
    rw [this, Option.or_none]

/-- What is in the tree created. -/
theorem look_created {E : Env} {S : Store} (hS : NoCollision E S) {g : Groups} (h : Listing (flat g))
    (hm : createTree g ∈ S) (q : List Str) : look E S ⟨.tree, E.H (createTree g)⟩ q = lookIn E S g q := by
  obtain ⟨l, h1, _, _, h4, _⟩ := Tree.C32_round_trip g h
  have hl := h.perm h1.symm
  cases q with
  | nil => rfl
  | cons n q =>
    have := (Tree.dir_of_parse (es := entries g) (Tree.retrieve_hash hS hm) h4 hl.names
      (Tree.get_perm (by rw [List.map_map]; exact hl.names) (h1.map Ent.pair))).2 n q
    exact this

theorem canonical_created {E : Env} {S : Store} {g : Groups} (h : Listing (flat g)) (hm : createTree g ∈ S)
    (hc : ∀ e ∈ flat g, Canonical E S ⟨e.type, e.id⟩) : Canonical E S ⟨.tree, E.H (createTree g)⟩ := by
  obtain ⟨l, h1, h2, h3, _⟩ := Tree.C32_round_trip g h
  rw [h3] at hm ⊢
  exact .tree (h.perm h1.symm) h2 hm fun e he => hc e (h1.mem_iff.1 he)

/-- What is in a directory as git writes it. -/
theorem look_listing {E : Env} {S : Store} (hS : NoCollision E S) {l : List Ent} (h : Listing l)
    (hm : l.flatMap Tree.gitText ∈ S) (n : Str) (q : List Str) :
    look E S ⟨.tree, E.H (l.flatMap Tree.gitText)⟩ (n :: q) = (get n (l.map Ent.pair)).bind fun i => look E S i q :=
  (Tree.dir_of_parse (Tree.retrieve_hash hS hm) (Tree.parseTree_texts h.ok) h.names fun _ => rfl).2 n q

theorem look_some (E : Env) (S : Store) (i : Info) : ∃ o, look E S i [] = some o := ⟨_, rfl⟩

/-- Canonical objects with the same content are the same. -/
theorem Canonical.eq {E : Env} {S : Store} (hS : NoCollision E S) {i : Info} (hi : Canonical E S i) :
    ∀ {j : Info}, Canonical E S j → (∀ q, look E S i q = look E S j q) → i = j := by
  induction hi with
  | @leaf i h =>
    intro j hj hq
    have := hq []
    rw [look, look, if_neg h] at this
    split at this
    · cases this
    · have := Option.some.inj this
      injection this with h1 h2
      cases i; cases j
      dsimp only at h1 h2
      rw [h1, h2]
  | @tree l h1 h2 h3 h4 ih =>
    intro j hj hq
    cases hj with
    | leaf h =>
      have := hq []
      rw [look, look, if_pos rfl, if_neg h] at this
      cases this
    | @tree l' g1 g2 g3 g4 =>
      have hn : ((l.map Ent.pair).map Prod.fst).Nodup := by rw [List.map_map]; exact h1.names
      have hn' : ((l'.map Ent.pair).map Prod.fst).Nodup := by rw [List.map_map]; exact g1.names
      have hsub : ∀ e ∈ l, e ∈ l' := by
        intro e he
        have hg : get e.name (l.map Ent.pair) = some ⟨e.type, e.id⟩ :=
          (Tree.get_iff hn).2 (List.mem_map.2 ⟨e, he, rfl⟩)
        have hq' : ∀ q, look E S ⟨e.type, e.id⟩ q = (get e.name (l'.map Ent.pair)).bind fun i => look E S i q := by
          intro q
          rw [← look_listing hS g1 g3, ← hq, look_listing hS h1 h3, hg]
          rfl
        obtain ⟨o, ho⟩ := look_some E S ⟨e.type, e.id⟩
        cases hg' : Tree.get e.name (l'.map Ent.pair) with
        | none =>
          rw [hq', hg'] at ho
          cases ho
        | some i' =>
          rw [hg'] at hq'
          obtain ⟨e', he', hp⟩ := List.mem_map.1 (Tree.get_mem hg')
          have : (⟨e'.type, e'.id⟩ : Info) = i' := congrArg Prod.snd hp
          have hj := ih e he (this ▸ g4 e' he') hq'
          have hnm : e'.name = e.name := congrArg Prod.fst hp
          have hee : e = e' := by
            rw [← this] at hj
            injection hj with a b
            cases e; cases e'
            dsimp only at a b hnm
            rw [a, b, hnm]
          rw [hee]
          exact he'
      have hsub' : ∀ e ∈ l', e ∈ l := by
        intro e he
        have hg : get e.name (l'.map Ent.pair) = some ⟨e.type, e.id⟩ :=
          (Tree.get_iff hn').2 (List.mem_map.2 ⟨e, he, rfl⟩)
        have h0 := hq (e.name :: [])
        rw [look_listing hS g1 g3, look_listing hS h1 h3, hg] at h0
        cases hg' : Tree.get e.name (l.map Ent.pair) with
        | none =>
          rw [hg'] at h0
          cases h0
        | some i' =>
          obtain ⟨e', he', hp⟩ := List.mem_map.1 (Tree.get_mem hg')
          have hnm : e'.name = e.name := congrArg Prod.fst hp
          have := List.inj_on_of_nodup_map g1.names (hsub e' he') he hnm
          rw [← this]
          exact he'
      have hp : l.Perm l' := (List.perm_ext_iff_of_nodup h1.names.of_map g1.names.of_map).2
        fun e => ⟨hsub e, hsub' e⟩
      have : l = l' := hp.eq_of_pairwise (fun a b _ _ hab hba => absurd (lt_trans hab hba) (lt_irrefl _)) h2 g2
      rw [this]

theorem lookIn_addTree {E : Env} {S : Store} (hS : NoCollision E S) {t u : Groups} (ht : Listing (flat t))
    (hu : Listing (flat u)) (hm : createTree t ∈ S) {d : Str} (hd : Name d) (hi : (E.H (createTree t)).length = 20)
    (hg : get d (entries u) = none) :
    lookIn E S (addTo (E.H (createTree t)) (d, .tree) u) = node E S u d (lookIn E S t) := by
  funext q
  cases q with
  | nil => rfl
  | cons n q =>
    rw [node_cons, lookIn_cons, lookIn_cons, get_addTo hu hd hi hg]
    split
    · rw [Option.bind_some]
      exact look_created hS ht hm q
    · rfl

/-! ## Strings -/

theorem prefix_between : ∀ {x a b c : Str}, a ≤ b → b ≤ c → x <+: a → x <+: c → x <+: b
  | [], _, _, _, _, _, _, _ => List.nil_prefix
  | h :: x, a, b, c, hab, hbc, ha, hc => by
    obtain ⟨a', rfl⟩ := ha
    obtain ⟨c', rfl⟩ := hc
    cases b with
    | nil =>
      exact absurd hab (not_le_of_gt (List.nil_lt_cons _ _))
    | cons y b =>
      rw [List.cons_append] at hab hbc
      have h1 : ¬ (y :: b < h :: (x ++ a')) := not_lt_of_ge hab
      have h2 : ¬ (h :: (x ++ c') < y :: b) := not_lt_of_ge hbc
      rw [List.cons_lt_cons_iff] at h1 h2
      have hy : y = h := le_antisymm (not_lt.1 fun h => h2 (.inl h)) (not_lt.1 fun h => h1 (.inl h))
      subst hy
      have h3 : x <+: b := prefix_between (not_lt.1 fun h => h1 (.inr ⟨rfl, h⟩)) (not_lt.1 fun h => h2 (.inr ⟨rfl, h⟩))
        (List.prefix_append _ _) (List.prefix_append _ _)
      exact List.cons_prefix_cons.2 ⟨rfl, h3⟩

theorem join_prefix {x k : List Str} (hx : x ≠ []) (h : x <+: k) (hn : x ≠ k) :
    joinWith '/' x ++ ['/'] <+: joinWith '/' k := by
  obtain ⟨r, rfl⟩ := h
  have hr : r ≠ [] := by
    rintro rfl
    exact hn (List.append_nil x).symm
  rw [joinWith_append _ hx hr]
  exact ⟨joinWith '/' r, by simp⟩

theorem prefix_of_join {x k : List Str} (hx : ∀ a ∈ x, Seg a) (hk : ∀ a ∈ k, Seg a)
    (h : joinWith '/' x ++ ['/'] <+: joinWith '/' k) : x <+: k ∧ x ≠ k := by
  obtain ⟨r, hr⟩ := h
  have h1 : names (joinWith '/' k) = names (joinWith '/' x) ++ names r := by
    rw [← hr, List.append_assoc]
    exact names_sep _ _
  rw [names_join hk, names_join hx] at h1
  refine ⟨⟨_, h1.symm⟩, fun e => ?_⟩
  subst e
  have := congrArg List.length hr
  rw [List.length_append, List.length_append] at this
  simp only [List.length_cons, List.length_nil] at this
  omega

theorem join_inj {x y : List Str} (hx : ∀ a ∈ x, Seg a) (hy : ∀ a ∈ y, Seg a) (h : joinWith '/' x = joinWith '/' y) :
    x = y := by
  rw [← names_join hx, ← names_join hy, h]

theorem filename_join {l : List Str} {x : Str} (hx : ProperName x) : filename (joinWith '/' (l ++ [x])) = x := by
  by_cases hl : l = []
  · subst hl
    exact Symlinks.filename_noSlash hx.1
  · rw [Symlinks.join_snoc hl]
    exact Symlinks.filename_sep _ hx.1

theorem append_join {l : List Str} {x : Str} (hl : ∀ a ∈ l, Seg a) (hx : ProperName x) :
    append (joinWith '/' l) x = joinWith '/' (l ++ [x]) := by
  have hxa : isAbs x = false := isAbs_of_noSlash hx.1
  by_cases h0 : l = []
  · subst h0
    simp [append, hxa, joinWith]
  · obtain ⟨c, hc, hg⟩ := joinWith_getLast h0 hl
    have hne := joinWith_ne_nil h0 hl
    rw [Symlinks.join_snoc h0]
    unfold append
    rw [hxa]
    simp [hne, hg, hc]

theorem seg_of {l : List Str} (h : ∀ a ∈ l, Name a) : ∀ a ∈ l, Seg a := fun a ha => (h a ha).proper.seg

theorem mismatch_disjoint : ∀ (l m : List Str) (c : List Str), c <+: (mismatch l m).1 → c <+: (mismatch l m).2 → c = []
  | [], m, c, h, _ => by
    unfold mismatch at h
    exact List.prefix_nil.1 h
  | a :: l, [], c, _, h => by
    unfold mismatch at h
    exact List.prefix_nil.1 h
  | a :: l, b :: m, c, h, h' => by
    unfold mismatch at h h'
    split at h
    · rename_i e
      rw [if_pos e] at h'
      exact mismatch_disjoint l m c h h'
    · rename_i e
      rw [if_neg e] at h'
      cases c with
      | nil => rfl
      | cons x c =>
        have h1 := (List.cons_prefix_cons.1 h).1
        have h2 := (List.cons_prefix_cons.1 h').1
        exact absurd (h1.symm.trans h2) e

/-- The elements of the relative path. -/
theorem elems_relative {T D : List Str} (hT : ∀ a ∈ T, Name a) (hD : ∀ a ∈ D, Name a) : ∃ c a b, T = c ++ a ∧ D = c ++ b ∧
    (∀ x, x <+: a → x <+: b → x = []) ∧ elems (lexRelative (joinWith '/' T) (joinWith '/' D)) =
      if a = [] ∧ b = [] then [dot] else List.replicate b.length dotdot ++ a := by
  obtain ⟨c, h1, h2⟩ := mismatch_spec T D
  refine ⟨c, (mismatch T D).1, (mismatch T D).2, h1, h2, mismatch_disjoint T D, ?_⟩
  unfold lexRelative
  rw [isAbs_join (seg_of hT), isAbs_join (seg_of hD), if_neg (by simp), Stage.elems_join (seg_of hT),
    Stage.elems_join (seg_of hD)]
  generalize hab : mismatch T D = m at *
  obtain ⟨a, b⟩ := m
  dsimp only at h1 h2 ⊢
  have ha : ∀ x ∈ a, Name x := fun x hx => hT x (by rw [h1]; exact List.mem_append_right _ hx)
  have hb : ∀ x ∈ b, Name x := fun x hx => hD x (by rw [h2]; exact List.mem_append_right _ hx)
  by_cases h0 : a = [] ∧ b = []
  · rw [if_pos h0, if_pos h0]
    decide
  · rw [if_neg h0, if_neg h0]
    have hpos : countNames b = b.length := by
      unfold countNames
      rw [List.countP_eq_length]
      intro x hx
      have := (hb x hx).proper
      simp [this.2.1, this.2.2.1, this.2.2.2]
    have hneg : b.countP (fun x => x == dotdot) = 0 := by
      rw [List.countP_eq_zero]
      intro x hx
      have := (hb x hx).proper
      simp [this.2.2.2]
    rw [hpos, hneg, if_neg (Nat.not_lt_zero _), Nat.sub_zero]
    have hne : ¬ (b.length = 0 ∧ (a = [] ∨ a.head? = some [])) := by
      rintro ⟨hb0, h⟩
      have hb0 := List.length_eq_zero_iff.1 hb0
      rcases h with h | h
      · exact h0 ⟨h, hb0⟩
      · cases a with
        | nil => cases h
        | cons x a =>
          have := (ha x (List.mem_cons_self ..)).proper.2.1
          exact this (Option.some.inj h)
    rw [if_neg hne]
    have hseg : ∀ x ∈ List.replicate b.length dotdot ++ a, Seg x := fun x hx => by
      rcases List.mem_append.1 hx with hx | hx
      · rw [List.eq_of_mem_replicate hx]
        exact seg_dotdot
      · exact (ha x hx).proper.seg
    rw [foldl_append_join _ hseg, Stage.elems_join hseg]
    intro e
    obtain ⟨e1, e2⟩ := List.append_eq_nil_iff.1 e
    refine h0 ⟨e2, ?_⟩
    have := congrArg List.length e1
    rw [List.length_replicate] at this
    exact List.length_eq_zero_iff.1 this

/-! ## Invariant -/

/-- The state while walking, in terms of segments: `t` is the tree on top, `r` has the trees below and the names of the
directories leading to the top. -/
structure State (p : Partial) (t : Groups) (r : List (Groups × Str)) : Prop where
  trees : p.trees = t :: r.map Prod.fst
  dir : p.dir = joinWith '/' (place r)
  names : ∀ a ∈ place r, Name a

/-- What has been added so far: the artifacts `P` and the directory `D`. -/
structure Good (E : Env) (S : Store) (t : Groups) (r : List (Groups × Str)) (P : List (List Str × Info))
    (D : List Str) : Prop where
  top : Listing (flat t)
  below : ∀ x ∈ r, Listing (flat x.1) ∧ get x.2 (entries x.1) = none
  artifact : ∀ x ∈ P, ∀ q, plug E S (lookIn E S t) r (x.1 ++ q) = look E S x.2 q
  above : ∀ q, (q <+: D ∨ ∃ x ∈ P, q <+: x.1 ∧ q ≠ x.1) → plug E S (lookIn E S t) r q = some .dir
  nothing : ∀ q, ¬ q <+: D → (∀ x ∈ P, ¬ q <+: x.1 ∧ ¬ x.1 <+: q) → plug E S (lookIn E S t) r q = none
  canonical : (∀ x ∈ P, Canonical E S x.2) → (∀ e ∈ flat t, Canonical E S ⟨e.type, e.id⟩) ∧
    ∀ x ∈ r, ∀ e ∈ flat x.1, Canonical E S ⟨e.type, e.id⟩

theorem place_cons (u : Groups) (d : Str) (r : List (Groups × Str)) : place ((u, d) :: r) = place r ++ [d] := by
  unfold place
  rw [List.map_cons, List.reverse_cons]

theorem not_longer (l : List Str) (s : Str) : ¬ (l ++ [s]) <+: l := fun hp => by
  have := hp.length_le
  rw [List.length_append, List.length_singleton] at this
  omega

theorem up_state {E : Env} {p : Partial} {t u : Groups} {d : Str}
    {r : List (Groups × Str)} (h : State p t ((u, d) :: r)) : ∃ q, p.up E.H = .ok q ∧ q.made = createTree t :: p.made ∧
      State q (addTo (E.H (createTree t)) (d, .tree) u) r := by
  have hdir := h.dir
  have hnames := h.names
  rw [place_cons] at hdir hnames
  have hd : Name d := hnames d (by simp)
  refine ⟨⟨joinWith '/' (place r), addTo (E.H (createTree t)) (d, .tree) u :: r.map Prod.fst, createTree t :: p.made⟩,
    ?_, rfl, ⟨rfl, rfl, fun a ha => hnames a (List.mem_append_left _ ha)⟩⟩
  unfold Partial.up
  rw [h.trees]
  rw [hdir, parentPath_join (fun a ha => (hnames a ha).proper), filename_join hd.proper]
  rfl

theorem up_good {E : Env} (hE : ∀ s, (E.H s).length = 20) {S : Store} {t u : Groups} {d : Str} (hd : Name d)
    {r : List (Groups × Str)} {P : List (List Str × Info)} {D : List Str} (h : Good E S t ((u, d) :: r) P D)
    (hS : NoCollision E S) (hm : createTree t ∈ S) : Good E S (addTo (E.H (createTree t)) (d, .tree) u) r P D := by
  obtain ⟨hu, hg⟩ := h.below (u, d) (List.mem_cons_self ..)
  have key : plug E S (lookIn E S (addTo (E.H (createTree t)) (d, .tree) u)) r = plug E S (lookIn E S t) ((u, d) :: r) := by
    rw [lookIn_addTree hS h.top hu hm hd (hE _) hg, plug]
  refine ⟨listing_addTo hu hd (hE _) hg, fun x hx => h.below x (List.mem_cons_of_mem _ hx), ?_, ?_, ?_, fun hc =>
    ⟨fun e he => ?_, fun x hx => (h.canonical hc).2 x (List.mem_cons_of_mem _ hx)⟩⟩
  · rw [key]; exact h.artifact
  · rw [key]; exact h.above
  · rw [key]; exact h.nothing
  · rcases List.mem_append.1 ((Tree.flat_addTo _ _ u).mem_iff.1 he) with he | he
    · exact (h.canonical hc).2 (u, d) (List.mem_cons_self ..) e he
    · rw [List.mem_singleton.1 he]
      exact canonical_created h.top hm (h.canonical hc).1

theorem absent {E : Env} {S : Store} {t : Groups} {r : List (Groups × Str)} {P : List (List Str × Info)} {s : Str}
    (h : Good E S t r P (place r)) (hfree : ∀ x ∈ P, ¬ (place r ++ [s]) <+: x.1 ∧ ¬ x.1 <+: (place r ++ [s])) :
    get s (entries t) = none := by
  have := h.nothing (place r ++ [s]) (not_longer _ _) hfree
  rw [plug_at, lookIn_cons] at this
  cases hg : Tree.get s (entries t) with
  | none => rfl
  | some i =>
    rw [hg] at this
    cases this

theorem down_state {p : Partial} {t : Groups} {r : List (Groups × Str)} (h : State p t r) {s : Str} (hn : Name s) :
    State (p.down s) [] ((t, s) :: r) ∧ (p.down s).made = p.made := by
  have hdown : p.down s = ⟨append p.dir s, [] :: p.trees, p.made⟩ := by
    unfold Partial.down
    rw [if_neg]
    rintro (e | e)
    · exact hn.proper.2.2.1 e
    · exact hn.proper.2.1 e
  have hnames : ∀ a ∈ place r ++ [s], Name a := fun a ha => by
    rcases List.mem_append.1 ha with ha | ha
    · exact h.names a ha
    · rw [List.mem_singleton.1 ha]; exact hn
  refine ⟨⟨?_, ?_, by rw [place_cons]; exact hnames⟩, by rw [hdown]⟩
  · rw [hdown, h.trees]
    rfl
  · rw [hdown, place_cons, ← append_join (seg_of h.names) hn.proper, ← h.dir]

theorem down_good {E : Env} {S : Store} {t : Groups} {r : List (Groups × Str)} {P : List (List Str × Info)} {s : Str}
    (h : Good E S t r P (place r)) (hfree : ∀ x ∈ P, ¬ (place r ++ [s]) <+: x.1 ∧ ¬ x.1 <+: (place r ++ [s])) :
    Good E S [] ((t, s) :: r) P (place r ++ [s]) := by
  have habs := absent h hfree
  have key : ∀ q, plug E S (lookIn E S []) ((t, s) :: r) q =
      if q = place r ++ [s] then some .dir else plug E S (lookIn E S t) r q := by
    intro q
    rw [plug]
    dsimp only
    by_cases hq : place r <+: q
    · obtain ⟨q, rfl⟩ := hq
      rw [plug_at, plug_at]
      cases q with
      | nil =>
        rw [List.append_nil, if_neg]
        · rfl
        · intro e
          exact not_longer (place r) s ⟨[], by rw [List.append_nil]; exact e.symm⟩
      | cons n q =>
        rw [node_cons]
        by_cases hns : n = s
        · subst hns
          rw [if_pos rfl]
          cases q with
          | nil => rw [if_pos rfl]; rfl
          | cons m q =>
            rw [if_neg]
            · rw [lookIn_cons E S t, habs]
              rfl
            · intro e
              have := List.append_cancel_left e
              injection this with _ h2
              cases h2
        · rw [if_neg hns, if_neg]
          intro e
          have := List.append_cancel_left e
          injection this with h1 _
          exact hns h1
    · rw [plug_off E S r _ (lookIn E S t) q hq, if_neg]
      rintro rfl
      exact hq (List.prefix_append _ _)
  refine ⟨⟨fun e he => (nomatch he), List.nodup_nil⟩, fun x hx => ?_, fun x hx q => ?_, fun q hq => ?_,
    fun q hq hq' => ?_, fun hc => ⟨fun e he => (nomatch he), fun x hx => ?_⟩⟩
  · rcases List.mem_cons.1 hx with rfl | hx
    · exact ⟨h.top, habs⟩
    · exact h.below x hx
  · rw [key, if_neg, h.artifact x hx]
    intro e
    exact (hfree x hx).2 ⟨q, e⟩
  · rw [key]
    split
    · rfl
    · rename_i hne
      refine h.above q ?_
      rcases hq with hq | hq
      · rcases List.prefix_concat_iff.1 hq with e | hq
        · exact absurd e hne
        · exact .inl hq
      · exact .inr hq
  · rw [key, if_neg, h.nothing q (fun hp => hq (hp.trans (List.prefix_append _ _))) hq']
    rintro rfl
    exact hq List.prefix_rfl
  · rcases List.mem_cons.1 hx with rfl | hx
    · exact (h.canonical hc).1
    · exact (h.canonical hc).2 x hx

theorem add_good {E : Env} {S : Store} {t : Groups} {r : List (Groups × Str)} {P : List (List Str × Info)} {n : Str}
    {i : Info} (h : Good E S t r P (place r)) (hn : Name n) (hi : i.id.length = 20)
    (hfree : ∀ x ∈ P, ¬ (place r ++ [n]) <+: x.1 ∧ ¬ x.1 <+: (place r ++ [n])) :
    Good E S (addTo i.id (n, i.type) t) r (P ++ [(place r ++ [n], i)]) (place r) := by
  have habs := absent h hfree
  have at' : ∀ q, plug E S (lookIn E S (addTo i.id (n, i.type) t)) r (place r ++ n :: q) = look E S i q := by
    intro q
    rw [plug_at, lookIn_cons, get_addTo h.top hn hi habs, if_pos rfl]
    rfl
  have off : ∀ q, ¬ (place r ++ [n]) <+: q →
      plug E S (lookIn E S (addTo i.id (n, i.type) t)) r q = plug E S (lookIn E S t) r q := by
    intro q hq
    by_cases hp : place r <+: q
    · obtain ⟨q, rfl⟩ := hp
      rw [plug_at, plug_at]
      cases q with
      | nil => rfl
      | cons m q =>
        rw [lookIn_cons, lookIn_cons, get_addTo h.top hn hi habs, if_neg]
        rintro rfl
        apply hq
        rw [List.append_cons _ _ q]
        exact List.prefix_append _ _
    · exact plug_off E S r _ _ q hp
  refine ⟨listing_addTo h.top hn hi habs, h.below, fun x hx q => ?_, fun q hq => ?_, fun q hq hq' => ?_, fun hc =>
    have hc' := h.canonical fun x hx => hc x (List.mem_append_left _ hx)
    ⟨fun e he => ?_, hc'.2⟩⟩
  · rcases List.mem_append.1 hx with hx | hx
    · rw [off, h.artifact x hx]
      intro hp
      rcases List.prefix_or_prefix_of_prefix hp (List.prefix_append x.1 q) with hp | hp
      · exact (hfree x hx).1 hp
      · exact (hfree x hx).2 hp
    · rw [List.mem_singleton.1 hx]
      dsimp only
      rw [List.append_assoc]
      exact at' q
  · have hq' : ¬ (place r ++ [n]) <+: q := by
      intro hp
      rcases hq with hq | ⟨x, hx, hq, hne⟩
      · exact not_longer _ _ (hp.trans hq)
      · rcases List.mem_append.1 hx with hx | hx
        · exact (hfree x hx).1 (hp.trans hq)
        · rw [List.mem_singleton.1 hx] at hq hne
          exact hne (hq.eq_of_length_le hp.length_le)
    rw [off q hq']
    refine h.above q ?_
    rcases hq with hq | ⟨x, hx, hq, hne⟩
    · exact .inl hq
    · rcases List.mem_append.1 hx with hx | hx
      · exact .inr ⟨x, hx, hq, hne⟩
      · rw [List.mem_singleton.1 hx] at hq hne
        rcases List.prefix_concat_iff.1 hq with e | hq
        · exact absurd e hne
        · exact .inl hq
  · rw [off q ((hq' _ (List.mem_append_right _ (List.mem_singleton.2 rfl))).2), h.nothing q hq fun x hx =>
      hq' x (List.mem_append_left _ hx)]
  · rcases List.mem_append.1 ((Tree.flat_addTo _ _ t).mem_iff.1 he) with he | he
    · exact hc'.1 e he
    · rw [List.mem_singleton.1 he]
      exact hc _ (List.mem_append_right _ (List.mem_singleton.2 rfl))

/-! ## Walking -/

/-- The store has everything made, and hashes do not collide. -/
def Holds (E : Env) (S : Store) (p : Partial) : Prop := NoCollision E S ∧ ∀ c ∈ p.made, c ∈ S

/-- Going down to a directory below. -/
theorem downs {E : Env} {P : List (List Str × Info)} : ∀ (a : List Str) {p : Partial} {t : Groups}
    {r : List (Groups × Str)}, State p t r → (∀ x ∈ a, Name x) →
    (∀ c, c <+: a → c ≠ [] → ∀ x ∈ P, ¬ (place r ++ c) <+: x.1 ∧ ¬ x.1 <+: (place r ++ c)) →
    (∀ S, Holds E S p → Good E S t r P (place r)) →
    ∃ t' r', State (a.foldl Partial.down p) t' r' ∧ place r' = place r ++ a ∧
      ∀ S, Holds E S (a.foldl Partial.down p) → Good E S t' r' P (place r')
  | [], p, t, r, h, _, _, hg => ⟨t, r, h, (List.append_nil _).symm, hg⟩
  | s :: a, p, t, r, h, hn, hf, hg => by
    have hns := hn s (List.mem_cons_self ..)
    obtain ⟨h1, h2⟩ := down_state h hns
    have hpl := place_cons t s r
    obtain ⟨t', r', g1, g2, g3⟩ := downs (E := E) (P := P) a h1 (fun x hx => hn x (List.mem_cons_of_mem _ hx))
      (fun c hc h0 x hx => by
        rw [hpl, List.append_assoc]
        exact hf (s :: c) (List.cons_prefix_cons.2 ⟨rfl, hc⟩) (by simp) x hx)
      (fun S hS => by
        rw [hpl]
        refine down_good (hg S ⟨hS.1, ?_⟩) (fun x hx => hf [s] (List.cons_prefix_cons.2 ⟨rfl, List.nil_prefix⟩) (by simp) x hx)
        rw [← h2]
        exact hS.2)
    refine ⟨t', r', g1, ?_, g3⟩
    rw [g2, hpl, List.append_assoc]
    rfl

/-- Going up to the nearest directory that is above the one wanted. -/
theorem ascends {E : Env} (hE : ∀ s, (E.H s).length = 20) {P : List (List Str × Info)} {T : List Str} (hT : ∀ a ∈ T, Name a)
    {D : List Str} : ∀ (n : Nat) {p : Partial} {t : Groups} {r : List (Groups × Str)}, r.length < n → State p t r →
    (∀ S, Holds E S p → Good E S t r P D) → ∃ q t' r' a, Partial.ascend E.H (joinWith '/' T) n p = .ok q ∧
      State q t' r' ∧ T = place r' ++ a ∧ place r' <+: place r ∧ (∀ c, c <+: a → place r' ++ c <+: place r → c = []) ∧
      (∀ S, Holds E S q → Good E S t' r' P D)
  | 0, _, _, _, h, _, _ => absurd h (Nat.not_lt_zero _)
  | n + 1, p, t, r, hn, h, hg => by
    obtain ⟨c, a, b, hTc, hDc, hd, he⟩ := elems_relative hT h.names
    rw [← h.dir] at he
    unfold Partial.ascend
    rw [he]
    cases hb : b with
    | nil =>
      rw [hb, List.append_nil] at hDc
      have hs : ∃ x l, (if a = [] ∧ ([] : List Str) = [] then [dot] else List.replicate ([] : List Str).length dotdot ++ a) = x :: l ∧
          x ≠ dotdot := by
        split
        · exact ⟨dot, [], rfl, by decide⟩
        · rename_i h0
          cases ha : a with
          | nil => exact absurd ⟨ha, rfl⟩ h0
          | cons x l =>
            exact ⟨x, l, rfl, (hT x (by rw [hTc, ha]; simp)).proper.2.2.2⟩
      obtain ⟨x, l, hx, hxd⟩ := hs
      rw [hx]
      dsimp only
      rw [if_neg hxd]
      refine ⟨p, t, r, a, rfl, h, by rw [hDc]; exact hTc, List.prefix_rfl, fun y _ hy => ?_, hg⟩
      have := hy.length_le
      rw [List.length_append] at this
      exact List.length_eq_zero_iff.1 (by omega)
    | cons y b' =>
      rw [if_neg (by simp), List.length_cons, List.replicate_succ, List.cons_append]
      dsimp only
      rw [if_pos rfl]
      cases r with
      | nil =>
        rw [hb] at hDc
        have := congrArg List.length hDc
        simp [place] at this
      | cons x r =>
        obtain ⟨u, d⟩ := x
        obtain ⟨q, h1, h2, h3⟩ := up_state (E := E) h
        rw [h1]
        have hdn : Name d := h.names d (by rw [place_cons]; simp)
        obtain ⟨q', t', r', a', g1, g2, g3, g4, g5, g6⟩ := ascends hE hT (D := D) n
          (by rw [List.length_cons] at hn; omega) h3 (fun S hS => by
            refine up_good hE hdn (hg S ⟨hS.1, fun c hc => hS.2 c ?_⟩) hS.1 (hS.2 _ ?_)
            · rw [h2]; exact List.mem_cons_of_mem _ hc
            · rw [h2]; exact List.mem_cons_self ..)
        refine ⟨q', t', r', a', g1, g2, g3, ?_, fun z hz hz' => ?_, g6⟩
        · rw [place_cons]
          exact g4.trans (List.prefix_append _ _)
        · rw [place_cons] at hz'
          rcases List.prefix_concat_iff.1 hz' with e | hz'
          · -- then the directory left is a prefix of the target, but the relative path goes up
            exfalso
            have h5 : place r ++ [d] <+: T := by
              rw [← e, g3]
              exact (List.prefix_append_right_inj _).2 hz
            rw [place_cons] at hDc
            rw [hDc, hTc] at h5
            have h6 := (List.prefix_append_right_inj _).1 h5
            have := hd b h6 List.prefix_rfl
            rw [hb] at this
            cases this
          · exact g5 z hz hz'

/-- Everything is known to be there, whatever the directory. -/
theorem Good.narrow {E : Env} {S : Store} {t : Groups} {r : List (Groups × Str)} {P : List (List Str × Info)}
    {D D' : List Str} (h : Good E S t r P D) (hp : D' <+: D) (hD : D = [] ∨ ∃ x ∈ P, D <+: x.1) :
    Good E S t r P D' where
  top := h.top
  below := h.below
  artifact := h.artifact
  above := fun q hq => h.above q (hq.imp_left fun h => h.trans hp)
  nothing := fun q hq hq' => by
    refine h.nothing q (fun hd => ?_) hq'
    rcases hD with hD | ⟨x, hx, hD⟩
    · subst hD
      rw [List.prefix_nil.1 hd] at hq
      exact hq List.nil_prefix
    · exact (hq' x hx).1 (hd.trans hD)
  canonical := h.canonical

/-- Going to the directory of the next artifact. -/
theorem to_good {E : Env} (hE : ∀ s, (E.H s).length = 20) {P : List (List Str × Info)} {T : List Str}
    (hT : ∀ a ∈ T, Name a) {p : Partial} {t : Groups} {r : List (Groups × Str)} (h : State p t r)
    (hg : ∀ S, Holds E S p → Good E S t r P (place r)) (hD : place r = [] ∨ ∃ x ∈ P, place r <+: x.1)
    (hf : ∀ c, c <+: T → ¬ c <+: place r → ∀ x ∈ P, ¬ c <+: x.1 ∧ ¬ x.1 <+: c) :
    ∃ q t' r', p.to E.H (joinWith '/' T) = .ok q ∧ State q t' r' ∧ place r' = T ∧
      ∀ S, Holds E S q → Good E S t' r' P (place r') := by
  obtain ⟨q, t', r', a, g1, g2, g3, g4, g5, g6⟩ := ascends hE hT (D := place r) p.trees.length
    (by rw [h.trees]; simp) h hg
  unfold Partial.to
  rw [g1]
  obtain ⟨c, a', b, e1, e2, e3, e4⟩ := elems_relative hT g2.names
  rw [← g2.dir] at e4
  have hb : b = [] := by
    refine e3 b ?_ List.prefix_rfl
    rw [g3, e2, List.append_assoc] at e1
    rw [← List.append_cancel_left e1]
    exact List.prefix_append _ _
  subst hb
  rw [List.append_nil] at e2
  subst e2
  have ha : a = a' := List.append_cancel_left (g3.symm.trans e1)
  subst ha
  have hel : (elems (lexRelative (joinWith '/' T) q.dir)).foldl Partial.down q = a.foldl Partial.down q := by
    rw [e4]
    by_cases h0 : a = []
    · subst h0
      rw [if_pos ⟨rfl, rfl⟩]
      show Partial.down q dot = q
      unfold Partial.down
      rw [if_pos (.inl rfl)]
    · rw [if_neg (fun h => h0 h.1)]
      rfl
  obtain ⟨t'', r'', f1, f2, f3⟩ := downs (E := E) (P := P) a g2
    (fun x hx => hT x (by rw [g3]; exact List.mem_append_right _ hx))
    (fun c hc h0 x hx => hf (place r' ++ c) (by rw [g3]; exact (List.prefix_append_right_inj _).2 hc)
      (fun hp => h0 (g5 c hc hp)) x hx)
    (fun S hS => (g6 S hS).narrow g4 hD)
  refine ⟨a.foldl Partial.down q, t'', r'', ?_, f1, by rw [f2, g3], f3⟩
  show Out.ok _ = _
  rw [hel]

/-- Strings of paths in order. -/
def Before (x y : List Str × Info) : Prop := joinWith '/' x.1 < joinWith '/' y.1

/-- Adding the next artifact. -/
theorem add_next {E : Env} (hE : ∀ s, (E.H s).length = 20) {P : List (List Str × Info)} {k : List Str} {i : Info}
    (hk : k ≠ []) (hn : ∀ x ∈ P ++ [(k, i)], ∀ a ∈ x.1, Name a)
    (hfree : ∀ x ∈ P ++ [(k, i)], ∀ y ∈ P ++ [(k, i)], x.1 <+: y.1 → x.1 = y.1) (hi : i.id.length = 20)
    (hord : (P ++ [(k, i)]).Pairwise Before) {p : Partial} {t : Groups} {r : List (Groups × Str)} (h : State p t r)
    (hg : ∀ S, Holds E S p → Good E S t r P (place r))
    (hlast : P = [] ∧ place r = [] ∨ ∃ P' m j, P = P' ++ [(place r ++ [m], j)]) :
    ∃ q t' r', p.add E.H (joinWith '/' k) i = .ok q ∧ State q t' r' ∧
      (∃ m, k = place r' ++ [m]) ∧ ∀ S, Holds E S q → Good E S t' r' (P ++ [(k, i)]) (place r') := by
  obtain ⟨T, m, rfl⟩ : ∃ T m, k = T ++ [m] := ⟨_, _, (List.dropLast_append_getLast hk).symm⟩
  have hkn : ∀ a ∈ T ++ [m], Name a := hn _ (List.mem_append_right _ (List.mem_singleton.2 rfl))
  have hself : (T ++ [m], i) ∈ P ++ [(T ++ [m], i)] := List.mem_append_right _ (List.mem_singleton.2 rfl)
  have hlt : ∀ x ∈ P, Before x (T ++ [m], i) := fun x hx =>
    (List.pairwise_append.1 hord).2.2 x hx _ (List.mem_singleton.2 rfl)
  have hne : ∀ x ∈ P, x.1 ≠ T ++ [m] := fun x hx e => by
    have := hlt x hx
    unfold Before at this
    rw [e] at this
    exact lt_irrefl _ this
  have hT : ∀ a ∈ T, Name a := fun a ha => hkn a (List.mem_append_left _ ha)
  have hfr : ∀ x ∈ P, ¬ (T ++ [m]) <+: x.1 ∧ ¬ x.1 <+: (T ++ [m]) := fun x hx =>
    ⟨fun hp => hne x hx (hfree _ hself _ (List.mem_append_left _ hx) hp).symm,
      fun hp => hne x hx (hfree _ (List.mem_append_left _ hx) _ hself hp)⟩
  obtain ⟨q, t', r', g1, g2, g3, g4⟩ := to_good hE hT h hg
    (by
      rcases hlast with ⟨_, hl⟩ | ⟨P', m', j, hl⟩
      · exact .inl hl
      · refine .inr ⟨(place r ++ [m'], j), ?_, List.prefix_append _ _⟩
        rw [hl]
        exact List.mem_append_right _ (List.mem_singleton.2 rfl))
    (fun c hc hcr x hx => by
      have hcT : c <+: T ++ [m] := hc.trans (List.prefix_append _ _)
      have hcn : c ≠ T ++ [m] := fun e => not_longer T m (by rw [← e]; exact hc)
      have hc0 : c ≠ [] := fun e => hcr (by rw [e]; exact List.nil_prefix)
      refine ⟨fun hp => ?_, fun hp => (hfr x hx).2 (hp.trans hcT)⟩
      have hcx : c ≠ x.1 := fun e => (hfr x hx).2 (by rw [← e]; exact hcT)
      rcases hlast with ⟨hl, _⟩ | ⟨P', m', j, hl⟩
      · rw [hl] at hx; cases hx
      · have hmem : (place r ++ [m'], j) ∈ P := by rw [hl]; exact List.mem_append_right _ (List.mem_singleton.2 rfl)
        have hle : joinWith '/' x.1 ≤ joinWith '/' (place r ++ [m']) := by
          have ho := (List.pairwise_append.1 hord).1
          rw [hl] at ho hx
          rcases List.mem_append.1 hx with hx | hx
          · exact le_of_lt ((List.pairwise_append.1 ho).2.2 x hx _ (List.mem_singleton.2 rfl))
          · rw [List.mem_singleton.1 hx]
        have hb := prefix_between hle (le_of_lt (hlt _ hmem)) (join_prefix hc0 hp hcx) (join_prefix hc0 hcT hcn)
        obtain ⟨b1, b2⟩ := prefix_of_join (seg_of fun a ha => hkn a (hcT.subset ha))
          (seg_of (hn _ (List.mem_append_left _ hmem))) hb
        rcases List.prefix_concat_iff.1 b1 with e | b1
        · exact b2 e
        · exact hcr b1)
  unfold Partial.add
  rw [parentPath_join (fun a ha => (hkn a ha).proper), g1, filename_join (hkn m (by simp)).proper]
  refine ⟨⟨q.dir, addTo i.id (m, i.type) t' :: r'.map Prod.fst, q.made⟩, addTo i.id (m, i.type) t', r', ?_,
    ⟨rfl, g2.dir, g2.names⟩, ⟨m, by rw [g3]⟩, fun S hS => ?_⟩
  · show (match q.trees with | t :: r => _ | [] => _) = _
    rw [g2.trees]
  · have := add_good (g4 S hS) (hkn m (by simp)) hi (by rw [g3]; exact hfr)
    rw [g3] at this ⊢
    exact this

/-- Adding all artifacts. -/
theorem addAll_good {E : Env} (hE : ∀ s, (E.H s).length = 20) : ∀ (l P : List (List Str × Info)) {p : Partial} {t : Groups}
    {r : List (Groups × Str)}, (∀ x ∈ P ++ l, x.1 ≠ []) → (∀ x ∈ P ++ l, ∀ a ∈ x.1, Name a) →
    (∀ x ∈ P ++ l, ∀ y ∈ P ++ l, x.1 <+: y.1 → x.1 = y.1) → (∀ x ∈ P ++ l, x.2.id.length = 20) →
    (P ++ l).Pairwise Before → State p t r → (∀ S, Holds E S p → Good E S t r P (place r)) →
    (P = [] ∧ place r = [] ∨ ∃ P' m j, P = P' ++ [(place r ++ [m], j)]) →
    ∃ q t' r', addAll E.H (l.map fun x => (joinWith '/' x.1, some x.2)) p = .ok q ∧ State q t' r' ∧
      (place r' = [] ∨ ∃ x ∈ P ++ l, place r' <+: x.1) ∧ ∀ S, Holds E S q → Good E S t' r' (P ++ l) (place r')
  | [], P, p, t, r, _, _, _, _, _, h, hg, hl => by
    refine ⟨p, t, r, rfl, h, ?_, by rw [List.append_nil]; exact hg⟩
    rcases hl with ⟨_, hl⟩ | ⟨P', m', j, hl⟩
    · exact .inl hl
    · refine .inr ⟨(place r ++ [m'], j), ?_, List.prefix_append _ _⟩
      rw [hl]
      simp
  | (k, i) :: l, P, p, t, r, h0, hn, hf, hi, ho, h, hg, hl => by
    have hm : ∀ x, x ∈ P ++ [(k, i)] → x ∈ P ++ (k, i) :: l := fun x hx => by
      rw [List.append_cons]
      exact List.mem_append_left _ hx
    have hk := hm (k, i) (List.mem_append_right _ (List.mem_singleton.2 rfl))
    obtain ⟨q, t', r', g1, g2, ⟨m, g3⟩, g4⟩ := add_next hE (h0 _ hk) (fun x hx => hn x (hm x hx))
      (fun x hx y hy => hf x (hm x hx) y (hm y hy)) (hi _ hk)
      (by rw [List.append_cons] at ho; exact (List.pairwise_append.1 ho).1) h hg hl
    rw [List.append_cons] at h0 hn hf hi ho ⊢
    rw [List.map_cons, addAll, g1]
    exact addAll_good hE l (P ++ [(k, i)]) h0 hn hf hi ho g2 g4 (.inr ⟨P, m, i, by rw [← g3]⟩)

/-- Going up to the root. -/
theorem done_good {E : Env} (hE : ∀ s, (E.H s).length = 20) {P : List (List Str × Info)} {D : List Str} : ∀ (n : Nat)
    {p : Partial} {t : Groups} {r : List (Groups × Str)}, r.length < n → State p t r →
    (∀ S, Holds E S p → Good E S t r P D) →
    ∃ root made, p.done E.H n = .ok (root, made) ∧ ∀ S, NoCollision E S → (∀ c ∈ made, c ∈ S) →
      ∃ g, Good E S g [] P D ∧ createTree g ∈ S ∧ root = E.H (createTree g)
  | 0, _, _, _, h, _, _ => absurd h (Nat.not_lt_zero _)
  | n + 1, p, t, [], _, h, hg => by
    unfold Partial.done
    rw [h.dir]
    refine ⟨E.H (createTree t), createTree t :: p.made, ?_, fun S hS hm => ?_⟩
    · rw [if_pos (by decide), h.trees]
    · have := hg S ⟨hS, fun c hc => hm c (List.mem_cons_of_mem _ hc)⟩
      exact ⟨t, this, hm _ (List.mem_cons_self ..), rfl⟩
  | n + 1, p, t, (u, d) :: r, hn, h, hg => by
    unfold Partial.done
    have hdn : Name d := h.names d (by rw [place_cons]; simp)
    rw [if_neg]
    · obtain ⟨q, h1, h2, h3⟩ := up_state (E := E) h
      rw [h1]
      exact done_good hE n (by rw [List.length_cons] at hn; omega) h3 (fun S hS => by
        refine up_good hE hdn (hg S ⟨hS.1, fun c hc => hS.2 c ?_⟩) hS.1 (hS.2 _ ?_)
        · rw [h2]; exact List.mem_cons_of_mem _ hc
        · rw [h2]; exact List.mem_cons_self ..)
    · rw [h.dir]
      exact joinWith_ne_nil (by rw [place_cons]; simp) (seg_of h.names)

/-- The result of the whole computation. -/
theorem computed {E : Env} (hE : E.OK) {stage : OMap Str (Option Info)} {P : List (List Str × Info)}
    (h : Staged stage P) : (∃ p, addAll E.H stage.items Partial.init = .ok p) ∧
      ∃ root made, artifactsRoot E.H stage = .ok (root, made) ∧
      ∀ S, NoCollision E S → (∀ c ∈ made, c ∈ S) → ∃ g, Good E S g [] P [] ∧ createTree g ∈ S ∧ root = E.H (createTree g) := by
  have hord : P.Pairwise Before := by
    have := stage.asc
    unfold Ascending at this
    rw [h.items, List.pairwise_map] at this
    exact this
  have hinit : State Partial.init [] [] := ⟨rfl, rfl, fun a ha => (nomatch ha)⟩
  obtain ⟨q, t, r, g1, g2, g3, g4⟩ := addAll_good hE.length P [] h.nonempty h.names h.free h.ids hord hinit
    (fun S _ => ⟨⟨fun e he => (nomatch he), List.nodup_nil⟩, fun x hx => (nomatch hx), fun x hx => (nomatch hx),
      fun p hp => by
        rcases hp with hp | ⟨x, hx, _⟩
        · rw [List.prefix_nil.1 hp]; rfl
        · exact (nomatch hx),
      fun p hp _ => by
        cases p with
        | nil => exact absurd List.nil_prefix hp
        | cons n p => rfl, fun _ => ⟨fun e he => (nomatch he), fun x hx => (nomatch hx)⟩⟩) (.inl ⟨rfl, rfl⟩)
  obtain ⟨root, made, e1, e2⟩ := done_good hE.length q.trees.length (by rw [g2.trees]; simp) g2 g4
  rw [← h.items] at g1
  refine ⟨⟨q, g1⟩, root, made, ?_, fun S hS hm => ?_⟩
  · unfold artifactsRoot
    rw [g1]
    exact e1
  · obtain ⟨g, f1, f2, f3⟩ := e2 S hS hm
    exact ⟨g, f1.narrow List.nil_prefix g3, f2, f3⟩

theorem content_of {E : Env} {S : Store} (hS : NoCollision E S) {g : Groups} {P : List (List Str × Info)}
    (h : Good E S g [] P []) (hm : createTree g ∈ S) : Content E S P (look E S ⟨.tree, E.H (createTree g)⟩) := by
  have : look E S ⟨.tree, E.H (createTree g)⟩ = lookIn E S g := funext (look_created hS h.top hm)
  rw [this]
  exact ⟨h.artifact, fun p hp => h.above p (hp.imp_left fun e => by rw [e]; exact List.prefix_rfl),
    fun p hp hp' => h.nothing p (fun e => hp (List.prefix_nil.1 e)) hp'⟩

/-! ## Theorems -/

/-- **C79.** The root computed from the artifacts of a target exists, and has each artifact at its place, directories above
them, and nothing else. -/
theorem C79_root_partial {E : Env} (hE : E.OK) {stage : OMap Str (Option Info)} {P : List (List Str × Info)}
    (h : Staged stage P) : ∃ root made, artifactsRoot E.H stage = .ok (root, made) ∧
      ∀ S, NoCollision E S → (∀ c ∈ made, c ∈ S) → Content E S P (look E S ⟨.tree, root⟩) := by
  obtain ⟨_, root, made, h1, h2⟩ := computed hE h
  refine ⟨root, made, h1, fun S hS hm => ?_⟩
  obtain ⟨g, f1, f2, f3⟩ := h2 S hS hm
  rw [f3]
  exact content_of hS f1 f2

/-- **C79.** The identifier of the root depends on the content only: if the trees among the artifacts are as git writes them,
then stages with the same content give the same root, no matter whether, say, a directory is given as a tree or by the
files in it. -/
theorem C79_same_partial {E : Env} (hE : E.OK) {stage stage' : OMap Str (Option Info)} {P P' : List (List Str × Info)}
    (h : Staged stage P) (h' : Staged stage' P') {root root' : Str} {made made' : List Str}
    (hr : artifactsRoot E.H stage = .ok (root, made)) (hr' : artifactsRoot E.H stage' = .ok (root', made'))
    {S : Store} (hS : NoCollision E S) (hm : ∀ c ∈ made ++ made', c ∈ S) (hc : ∀ x ∈ P ++ P', Canonical E S x.2)
    (hsame : ∀ f f', Content E S P f → Content E S P' f' → f = f') : root = root' := by
  obtain ⟨_, _, _, h1, h2⟩ := computed hE h
  obtain ⟨_, _, _, h1', h2'⟩ := computed hE h'
  rw [hr] at h1
  rw [hr'] at h1'
  cases h1
  cases h1'
  obtain ⟨g, f1, f2, f3⟩ := h2 S hS fun c hc => hm c (List.mem_append_left _ hc)
  obtain ⟨g', f1', f2', f3'⟩ := h2' S hS fun c hc => hm c (List.mem_append_right _ hc)
  have e := hsame _ _ (content_of hS f1 f2) (content_of hS f1' f2')
  have := Canonical.eq hS
    (canonical_created f1.top f2 (f1.canonical fun x hx => hc x (List.mem_append_left _ hx)).1)
    (canonical_created f1'.top f2' (f1'.canonical fun x hx => hc x (List.mem_append_right _ hx)).1)
    (fun q => by rw [e])
  injection this with _ this
  rw [f3, f3', this]

/-- The root is as git writes it. -/
theorem root_canonical {E : Env} (hE : E.OK) {stage : OMap Str (Option Info)} {P : List (List Str × Info)}
    (h : Staged stage P) {root : Str} {made : List Str} (hr : artifactsRoot E.H stage = .ok (root, made)) {S : Store}
    (hS : NoCollision E S) (hm : ∀ c ∈ made, c ∈ S) (hc : ∀ x ∈ P, Canonical E S x.2) :
    Content E S P (look E S ⟨.tree, root⟩) ∧ Canonical E S ⟨.tree, root⟩ := by
  obtain ⟨_, _, _, h1, h2⟩ := computed hE h
  rw [hr] at h1
  cases h1
  obtain ⟨g, f1, f2, f3⟩ := h2 S hS hm
  rw [f3]
  exact ⟨content_of hS f1 f2, canonical_created f1.top f2 (f1.canonical hc).1⟩

/-- There is one content. -/
theorem Content.unique {E : Env} {S : Store} {P : List (List Str × Info)} {f f' : List Str → Option Obs}
    (h : Content E S P f) (h' : Content E S P f') : f = f' := by
  funext q
  by_cases hex : ∃ x ∈ P, x.1 <+: q
  · obtain ⟨x, hx, r, rfl⟩ := hex
    rw [h.artifact x hx, h'.artifact x hx]
  · by_cases hab : q = [] ∨ ∃ x ∈ P, q <+: x.1 ∧ q ≠ x.1
    · rw [h.above q hab, h'.above q hab]
    · rw [not_or] at hab
      have hn : ∀ x ∈ P, ¬ q <+: x.1 ∧ ¬ x.1 <+: q := fun x hx =>
        ⟨fun hp => hab.2 ⟨x, hx, hp, fun e => hex ⟨x, hx, e ▸ List.prefix_refl _⟩⟩, fun hp => hex ⟨x, hx, hp⟩⟩
      rw [h.nothing q hab.1 hn, h'.nothing q hab.1 hn]

theorem addAll_append (H : Str → Str) : ∀ (l l' : List (Str × Option Info)) (p : Partial),
    addAll H (l ++ l') p = (addAll H l p).bind (addAll H l')
  | [], _, _ => rfl
  | (_, none) :: _, _, _ => rfl
  | (ps, some i) :: r, l', p => by
    rw [List.cons_append, addAll, addAll]
    cases p.add H ps i with
    | ok q => exact addAll_append H r l' q
    | error => rfl
    | ub => rfl

/-- **C79.** No root is reported if an artifact is not known or cannot be rehashed, and the artifacts before it are placed
properly. -/
theorem C79_error {E : Env} (hE : E.OK) {stage before : OMap Str (Option Info)} {P : List (List Str × Info)}
    (h : Staged before P) {k : Str} {rest : List (Str × Option Info)}
    (hs : stage.items = before.items ++ (k, none) :: rest) : artifactsRoot E.H stage = .error := by
  obtain ⟨⟨p, hp⟩, _⟩ := computed hE h
  unfold artifactsRoot
  rw [hs, addAll_append, hp]
  rfl

end Verif.Roots
