import Verif.Stage.Lemmas

/-!
# Lemmas about directory trees
-/

namespace Verif.Stage

open Verif.Path

variable {A : Type}

/-- What is found in a tree by following names. -/
def Node.at : Node A → List Str → Option (Node A)
  | n, [] => some n
  | .leaf _, _ :: _ => none
  | .dir d, s :: t =>
    match lookup s d with
    | none => none
    | some n => n.at t

/-- The artifact at a location. -/
def leafAt (d : Dir A) (q : List Str) : Option A :=
  match (Node.dir d).at q with
  | some (.leaf a) => some a
  | _ => none

/-- There is a directory at a location. -/
def DirAt (d : Dir A) (q : List Str) : Prop := ∃ e, (Node.dir d).at q = some (.dir e)

theorem lookup_cons (s k : Str) (n : Node A) (d : Dir A) :
    lookup s ((k, n) :: d) = if s = k then some n else lookup s d := rfl

theorem lookup_replace (s k : Str) (n : Node A) (d : Dir A) (h : (lookup k d).isSome = true) :
    lookup s (replace k n d) = if s = k then some n else lookup s d := by
  induction d with
  | nil => cases h
  | cons e t ih =>
    obtain ⟨x, m⟩ := e
    unfold replace
    by_cases hk : k = x
    · subst hk
      rw [if_pos rfl, lookup_cons, lookup_cons]
      by_cases hs : s = k
      · rw [if_pos hs, if_pos hs]
      · rw [if_neg hs, if_neg hs, if_neg hs]
    · rw [if_neg hk, lookup_cons, lookup_cons]
      rw [lookup_cons, if_neg hk] at h
      rw [ih h]
      by_cases hs : s = x
      · subst hs
        rw [if_pos rfl, if_neg (fun e => hk e.symm), if_pos rfl]
      · rw [if_neg hs, if_neg hs]

theorem leafAt_nil (d : Dir A) : leafAt d [] = none := rfl

theorem dirAt_nil (d : Dir A) : DirAt d [] := ⟨d, rfl⟩

theorem leafAt_cons (d : Dir A) (s : Str) (t : List Str) :
    leafAt d (s :: t) =
      match lookup s d with
      | none => none
      | some (.leaf a) => if t = [] then some a else none
      | some (.dir e) => leafAt e t := by
  unfold leafAt
  cases hl : lookup s d with
  | none => simp [Node.at, hl]
  | some n =>
    cases n with
    | leaf a =>
      cases t with
      | nil => simp [Node.at, hl]
      | cons x t => simp [Node.at, hl]
    | dir e => simp [Node.at, hl]

theorem dirAt_cons (d : Dir A) (s : Str) (t : List Str) :
    DirAt d (s :: t) ↔ ∃ e, lookup s d = some (.dir e) ∧ DirAt e t := by
  unfold DirAt
  cases hl : lookup s d with
  | none => simp [Node.at, hl]
  | some n =>
    cases n with
    | leaf a =>
      cases t with
      | nil => simp [Node.at, hl]
      | cons x t => simp [Node.at, hl]
    | dir e =>
      simp only [Node.at, hl, Option.some.injEq, Node.dir.injEq]
      constructor
      · rintro ⟨f, h⟩
        exact ⟨e, rfl, f, h⟩
      · rintro ⟨e', rfl, f, h⟩
        exact ⟨f, h⟩

theorem leafAt_empty (q : List Str) : leafAt ([] : Dir A) q = none := by
  cases q with
  | nil => rfl
  | cons s t => rfl

theorem dirAt_empty (q : List Str) : DirAt ([] : Dir A) q ↔ q = [] := by
  cases q with
  | nil => simp [dirAt_nil]
  | cons s t =>
    rw [dirAt_cons]
    simp [lookup]

/-- When an artifact can be added. -/
structure CanAdd (d : Dir A) (p : List Str) : Prop where
  ne : p ≠ []
  dots : ∀ s ∈ p, s ≠ dot ∧ s ≠ dotdot
  leaf : ∀ q, q <+: p → leafAt d q = none
  dir : ¬ DirAt d p

/-- Effect of adding an artifact. -/
structure Added (a : A) (p : List Str) (d d' : Dir A) : Prop where
  leaf : ∀ q, leafAt d' q = if q = p then some a else leafAt d q
  dir : ∀ q, DirAt d' q ↔ DirAt d q ∨ (q <+: p ∧ q ≠ p)

theorem prefix_cons {q : List Str} {s : Str} {t : List Str} :
    q <+: s :: t ↔ q = [] ∨ ∃ r, q = s :: r ∧ r <+: t := by
  cases q with
  | nil => simp
  | cons x r =>
    rw [List.cons_prefix_cons]
    constructor
    · rintro ⟨rfl, h⟩
      exact Or.inr ⟨r, rfl, h⟩
    · rintro (h | ⟨r', h, h'⟩)
      · cases h
      · cases h
        exact ⟨rfl, h'⟩

theorem addAlong_spec (a : A) (p : List Str) (d : Dir A) :
    ((∃ d', addAlong a p d = some d') ↔ CanAdd d p) ∧
      ∀ d', addAlong a p d = some d' → Added a p d d' := by
  induction p generalizing d with
  | nil =>
    constructor
    · constructor
      · rintro ⟨d', h⟩; cases h
      · intro h; exact absurd rfl h.ne
    · intro d' h; cases h
  | cons s rest ih =>
    unfold addAlong
    by_cases hdots : s = dot ∨ s = dotdot
    · rw [if_pos hdots]
      constructor
      · constructor
        · rintro ⟨d', h⟩; cases h
        · intro h
          have := h.dots s List.mem_cons_self
          rcases hdots with e | e
          · exact absurd e this.1
          · exact absurd e this.2
      · intro d' h; cases h
    rw [if_neg hdots]
    have hd1 : s ≠ dot ∧ s ≠ dotdot := ⟨fun h => hdots (Or.inl h), fun h => hdots (Or.inr h)⟩
    by_cases hr : rest = []
    · subst hr
      rw [if_pos rfl]
      cases hl : lookup s d with
      | some n =>
        constructor
        · constructor
          · rintro ⟨d', h⟩; cases h
          · intro h
            exfalso
            cases n with
            | leaf b =>
              have := h.leaf [s] List.prefix_rfl
              rw [leafAt_cons, hl] at this
              cases this
            | dir e =>
              apply h.dir
              rw [dirAt_cons]
              exact ⟨e, hl, dirAt_nil e⟩
        · intro d' h; cases h
      | none =>
        constructor
        · constructor
          · intro _
            refine ⟨by simp, ?_, ?_, ?_⟩
            · intro x hx
              rw [List.mem_singleton.1 hx]
              exact hd1
            · intro q hq
              rcases prefix_cons.1 hq with rfl | ⟨r, rfl, hr⟩
              · rfl
              · rw [leafAt_cons, hl]
            · rw [dirAt_cons, hl]
              simp
          · intro _
            exact ⟨_, rfl⟩
        · intro d' h
          cases h
          constructor
          · intro q
            cases q with
            | nil => simp [leafAt_nil]
            | cons x t =>
              rw [leafAt_cons, lookup_cons]
              by_cases hx : x = s
              · subst hx
                rw [if_pos rfl]
                cases t with
                | nil => simp
                | cons y t =>
                  rw [leafAt_cons, hl]
                  simp
              · rw [if_neg hx]
                rw [if_neg (fun e => hx (List.cons.inj e).1), leafAt_cons]
          · intro q
            cases q with
            | nil => simp [dirAt_nil]
            | cons x t =>
              rw [dirAt_cons, dirAt_cons, lookup_cons]
              by_cases hx : x = s
              · subst hx
                rw [if_pos rfl, hl]
                simp
              · rw [if_neg hx]
                simp [hx]
    · rw [if_neg hr]
      -- adding below the directory `e0` (which is new or there already)
      have below : ∀ (e0 : Dir A) (mk : Dir A → Dir A),
          (lookup s d = some (.dir e0) ∨ lookup s d = none ∧ e0 = []) →
          (∀ e' x, lookup x (mk e') = if x = s then some (.dir e') else lookup x d) →
          ((∃ d', (addAlong a rest e0).map mk = some d') ↔ CanAdd d (s :: rest)) ∧
          ∀ d', (addAlong a rest e0).map mk = some d' → Added a (s :: rest) d d' := by
        intro e0 mk hl hmk
        have hleaf : ∀ t, leafAt d (s :: t) = leafAt e0 t := by
          intro t
          rw [leafAt_cons]
          rcases hl with h | ⟨h, rfl⟩
          · rw [h]
          · rw [h, leafAt_empty]
        have hdir : ∀ t, DirAt d (s :: t) → DirAt e0 t := by
          intro t h
          rw [dirAt_cons] at h
          obtain ⟨e, he, ht⟩ := h
          rcases hl with h | ⟨h, rfl⟩
          · rw [h] at he
            cases he
            exact ht
          · rw [h] at he
            cases he
        have hdir' : ∀ t, DirAt e0 t → t ≠ [] → DirAt d (s :: t) := by
          intro t h hne
          rcases hl with h' | ⟨h', rfl⟩
          · rw [dirAt_cons]
            exact ⟨e0, h', h⟩
          · rw [dirAt_empty] at h
            exact absurd h hne
        have hcan : CanAdd e0 rest ↔ CanAdd d (s :: rest) := by
          constructor
          · rintro ⟨h1, h2, h3, h4⟩
            refine ⟨by simp, ?_, ?_, fun h => h4 (hdir _ h)⟩
            · intro x hx
              rcases List.mem_cons.1 hx with rfl | hx
              · exact hd1
              · exact h2 x hx
            · intro q hq
              rcases prefix_cons.1 hq with rfl | ⟨r, rfl, hr⟩
              · rfl
              · rw [hleaf]
                exact h3 r hr
          · rintro ⟨h1, h2, h3, h4⟩
            refine ⟨hr, fun x hx => h2 x (List.mem_cons_of_mem _ hx), ?_, fun h => h4 (hdir' _ h hr)⟩
            intro q hq
            rw [← hleaf]
            exact h3 _ (prefix_cons.2 (Or.inr ⟨q, rfl, hq⟩))
        obtain ⟨i1, i2⟩ := ih e0
        constructor
        · rw [← hcan, ← i1]
          constructor
          · rintro ⟨d', h⟩
            obtain ⟨e', h1, -⟩ := Option.map_eq_some_iff.1 h
            exact ⟨e', h1⟩
          · rintro ⟨e', h⟩
            exact ⟨mk e', by rw [h]; rfl⟩
        · intro d' h
          obtain ⟨e', h1, rfl⟩ := Option.map_eq_some_iff.1 h
          obtain ⟨j1, j2⟩ := i2 e' h1
          constructor
          · intro q
            cases q with
            | nil => simp [leafAt_nil]
            | cons x t =>
              rw [leafAt_cons, hmk]
              by_cases hx : x = s
              · subst hx
                rw [if_pos rfl]
                simp only
                rw [j1, hleaf]
                by_cases ht : t = rest
                · rw [if_pos ht, if_pos (by rw [ht])]
                · rw [if_neg ht, if_neg (fun e => ht (List.cons.inj e).2)]
              · rw [if_neg hx, if_neg (fun e => hx (List.cons.inj e).1), leafAt_cons]
          · intro q
            cases q with
            | nil => simp [dirAt_nil]
            | cons x t =>
              rw [dirAt_cons, hmk]
              by_cases hx : x = s
              · subst hx
                rw [if_pos rfl]
                simp only [Option.some.injEq, Node.dir.injEq, exists_eq_left', List.cons_prefix_cons,
                  true_and, ne_eq, List.cons.injEq]
                rw [j2]
                constructor
                · rintro (h | h)
                  · by_cases ht : t = []
                    · subst ht
                      exact Or.inr ⟨List.nil_prefix, fun e => hr e.symm⟩
                    · exact Or.inl (hdir' t h ht)
                  · exact Or.inr h
                · rintro (h | h)
                  · exact Or.inl (hdir t h)
                  · exact Or.inr h
              · rw [if_neg hx, ← dirAt_cons]
                simp [hx]
      cases hl : lookup s d with
      | none =>
        exact below [] (fun d' => (s, .dir d') :: d) (Or.inr ⟨hl, rfl⟩) (fun e' x => lookup_cons _ _ _ _)
      | some n =>
        cases n with
        | leaf b =>
          constructor
          · constructor
            · rintro ⟨d', h⟩; cases h
            · intro h
              exfalso
              have := h.leaf [s] (prefix_cons.2 (Or.inr ⟨[], rfl, List.nil_prefix⟩))
              rw [leafAt_cons, hl] at this
              cases this
          · intro d' h; cases h
        | dir e0 =>
          exact below e0 (fun d' => replace s (.dir d') d) (Or.inl hl)
            (fun e' x => lookup_replace _ _ _ _ (by rw [hl]; rfl))

/-- The elements along which the artifact is added. -/
def segsOf (path : Str) : List Str := elems (lexNormal path)

/-- The path is acceptable on its own. -/
def OkPath (path : Str) : Prop :=
  lexNormal path ≠ [] ∧ isAbs (lexNormal path) = false ∧
    (∀ s ∈ segsOf path, s ≠ dot ∧ s ≠ dotdot)

/-- The tree contains exactly the artifacts of the list. -/
structure Holds (L : List (List Str × A)) (d : Dir A) : Prop where
  leaf : ∀ q a, leafAt d q = some a ↔ (q, a) ∈ L
  dir : ∀ q, DirAt d q ↔ q = [] ∨ ∃ e ∈ L, q <+: e.1 ∧ q ≠ e.1

theorem addAll_spec (l : List (Str × A)) (L : List (List Str × A)) (d : Dir A) (h : Holds L d)
    (hL : ∀ e ∈ L, e.1 ≠ []) :
    ((∃ d', addAll l d = some d') ↔
      (∀ e ∈ l, OkPath e.1 ∧ segsOf e.1 ≠ [] ∧
        ∀ f ∈ L, ¬ segsOf e.1 <+: f.1 ∧ ¬ f.1 <+: segsOf e.1) ∧
      l.Pairwise (fun x y => ¬ segsOf x.1 <+: segsOf y.1 ∧ ¬ segsOf y.1 <+: segsOf x.1)) ∧
    ∀ d', addAll l d = some d' → Holds (L ++ l.map (fun e => (segsOf e.1, e.2))) d' := by
  induction l generalizing L d with
  | nil =>
    constructor
    · simp [addAll]
    · intro d' h'
      cases h'
      simpa using h
  | cons e t ih =>
    obtain ⟨p, a⟩ := e
    unfold addAll addArtifact
    simp only
    by_cases hn : lexNormal p = [] ∨ isAbs (lexNormal p) = true
    · rw [if_pos hn]
      constructor
      · constructor
        · rintro ⟨d', h'⟩; cases h'
        · rintro ⟨h', -⟩
          have := (h' _ List.mem_cons_self).1
          rcases hn with h1 | h1
          · exact absurd h1 this.1
          · have h2 := this.2.1
            simp only at h2
            rw [h1] at h2
            cases h2
      · intro d' h'; cases h'
    rw [if_neg hn]
    have hn1 : lexNormal p ≠ [] := fun e => hn (Or.inl e)
    have hn2 : isAbs (lexNormal p) = false := by
      cases hb : isAbs (lexNormal p) with
      | false => rfl
      | true => exact absurd (Or.inr hb) hn
    obtain ⟨s1, s2⟩ := addAlong_spec a (elems (lexNormal p)) d
    have hcan : CanAdd d (elems (lexNormal p)) ↔ OkPath p ∧ segsOf p ≠ [] ∧
        ∀ f ∈ L, ¬ segsOf p <+: f.1 ∧ ¬ f.1 <+: segsOf p := by
      constructor
      · rintro ⟨h1, h2, h3, h4⟩
        refine ⟨⟨hn1, hn2, h2⟩, h1, ?_⟩
        intro f hf
        constructor
        · intro hpre
          by_cases he : elems (lexNormal p) = f.1
          · have := (h.leaf f.1 f.2).2 hf
            rw [h3 f.1 (by rw [he]; exact List.prefix_rfl)] at this
            cases this
          · exact h4 ((h.dir _).2 (Or.inr ⟨f, hf, hpre, he⟩))
        · intro hpre
          have := (h.leaf f.1 f.2).2 hf
          rw [h3 f.1 hpre] at this
          cases this
      · rintro ⟨⟨-, -, h2⟩, h1, h3⟩
        refine ⟨h1, h2, ?_, ?_⟩
        · intro q hq
          cases hle : leafAt d q with
          | none => rfl
          | some b =>
            have := (h.leaf q b).1 hle
            exact absurd hq (h3 _ this).2
        · intro hd
          rcases (h.dir _).1 hd with h' | ⟨f, hf, h', -⟩
          · exact h1 h'
          · exact absurd h' (h3 f hf).1
    cases hadd : addAlong a (elems (lexNormal p)) d with
    | none =>
      constructor
      · constructor
        · rintro ⟨d', h'⟩; cases h'
        · rintro ⟨h', -⟩
          have := s1.2 (hcan.2 (h' _ List.mem_cons_self))
          obtain ⟨d', hd'⟩ := this
          rw [hadd] at hd'
          cases hd'
      · intro d' h'; cases h'
    | some d1 =>
      obtain ⟨hok, hne, hfr⟩ := hcan.1 (s1.1 ⟨d1, hadd⟩)
      obtain ⟨a1, a2⟩ := s2 d1 hadd
      have hh : Holds (L ++ [(segsOf p, a)]) d1 := by
        constructor
        · intro q b
          rw [a1]
          by_cases hq : q = elems (lexNormal p)
          · rw [if_pos hq]
            constructor
            · intro e
              cases e
              rw [hq]
              simp [segsOf]
            · intro hm
              rcases List.mem_append.1 hm with hm | hm
              · exact absurd (by rw [hq]; exact List.prefix_rfl) (hfr _ hm).1
              · rw [List.mem_singleton] at hm
                cases hm
                rfl
          · rw [if_neg hq, h.leaf]
            constructor
            · intro hm
              exact List.mem_append_left _ hm
            · intro hm
              rcases List.mem_append.1 hm with hm | hm
              · exact hm
              · rw [List.mem_singleton] at hm
                cases hm
                exact absurd rfl hq
        · intro q
          rw [a2, h.dir]
          constructor
          · rintro ((h' | ⟨f, hf, h'⟩) | h')
            · exact Or.inl h'
            · exact Or.inr ⟨f, List.mem_append_left _ hf, h'⟩
            · exact Or.inr ⟨_, List.mem_append_right _ (List.mem_singleton.2 rfl), h'⟩
          · rintro (h' | ⟨f, hf, h'⟩)
            · exact Or.inl (Or.inl h')
            · rcases List.mem_append.1 hf with hf | hf
              · exact Or.inl (Or.inr ⟨f, hf, h'⟩)
              · rw [List.mem_singleton] at hf
                subst hf
                exact Or.inr h'
      obtain ⟨i1, i2⟩ := ih (L ++ [(segsOf p, a)]) d1 hh (by
        intro e he
        rcases List.mem_append.1 he with he | he
        · exact hL e he
        · rw [List.mem_singleton.1 he]
          exact hne)
      simp only
      constructor
      · rw [i1, List.pairwise_cons]
        constructor
        · rintro ⟨g, w⟩
          refine ⟨?_, ?_, w⟩
          · intro e he
            rcases List.mem_cons.1 he with rfl | he
            · exact ⟨hok, hne, hfr⟩
            · obtain ⟨g1, g2, g3⟩ := g e he
              exact ⟨g1, g2, fun f hf => g3 f (List.mem_append_left _ hf)⟩
          · intro e he
            have := (g e he).2.2 _ (List.mem_append_right _ (List.mem_singleton.2 rfl))
            exact ⟨this.2, this.1⟩
        · rintro ⟨g, w1, w⟩
          refine ⟨?_, w⟩
          intro e he
          obtain ⟨g1, g2, g3⟩ := g e (List.mem_cons_of_mem _ he)
          refine ⟨g1, g2, ?_⟩
          intro f hf
          rcases List.mem_append.1 hf with hf | hf
          · exact g3 f hf
          · rw [List.mem_singleton.1 hf]
            exact ⟨(w1 e he).2, (w1 e he).1⟩
      · intro d' h'
        have := i2 d' h'
        simpa using this

end Verif.Stage
