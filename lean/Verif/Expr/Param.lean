import Verif.Expr.Scope

/-!
# Constructs use the evaluator for their subterms only

One lemma for each construct; instances of the relation give locality, independence of the fuel, and
termination.
-/

set_option linter.unusedSectionVars false
set_option linter.unusedSimpArgs false

namespace Verif.Expr

variable {N A : Type}

/-- Relations between outcomes that are compatible with sequencing. -/
structure BindRel (R : ∀ {α : Type}, Res α → Res α → Prop) : Prop where
  ok : ∀ {α : Type} (a : α), R (Res.ok a) (Res.ok a)
  fail : ∀ {α : Type}, R (Res.fail : Res α) Res.fail
  bind : ∀ {α β : Type} {r r' : Res α} {k k' : α → Res β},
    R r r' → (∀ a, R (k a) (k' a)) → R (r.bind k) (r'.bind k')

/-- The default values of fields. -/
def IsDefault (d : Val N A) : Prop :=
  d = .none ∨ d = .list [] ∨ d = .map [] ∨ (∃ s, d = .str s) ∨ ∃ b, d = .bool b

/-- The evaluators are related on all subterms, in environments that differ from the given ones at
bound variables only. -/
def RelOn (R : ∀ {α : Type}, Res α → Res α → Prop) (ev ev' : Ev N A) (ρ ρ' : Env N A)
    (l : List (List Str × Val N A)) : Prop :=
  ∀ bs e, (bs, e) ∈ l → ∀ σ σ' : Env N A, (∀ x, x ∉ bs → σ x = ρ x ∧ σ' x = ρ' x) →
    (∀ x ∈ bs, σ x = σ' x) → R (ev e σ) (ev' e σ')

/-- Related evaluators give related outcomes of the construct. -/
def Good (R : ∀ {α : Type}, Res α → Res α → Prop)
    (sub : Items N A → List (List Str × Val N A)) (looked : Items N A → List Str)
    (c : Construct N A) : Prop :=
  ∀ (ev ev' : Ev N A) (m : Items N A) (ρ ρ' : Env N A),
    RelOn R ev ev' ρ ρ' (sub m) →
    (∀ d, IsDefault d → ∀ σ σ' : Env N A, R (ev d σ) (ev' d σ')) →
    (∀ x ∈ looked m, ρ x = ρ' x) → R (c ev m ρ) (c ev' m ρ')

theorem mapRes_ne_timeout {α β : Type} (f : α → Res β) :
    ∀ l : List α, (∀ a, f a ≠ .timeout) → mapRes f l ≠ .timeout
  | [], _ => by simp [mapRes]
  | a :: t, h => by
    unfold mapRes
    have h1 := h a
    have h2 := mapRes_ne_timeout f t h
    cases ha : f a with
    | ok b =>
      simp only [Res.bind]
      cases ht : mapRes f t with
      | ok bs => simp
      | fail => simp
      | timeout => exact absurd ht h2
    | fail => simp [Res.bind]
    | timeout => exact absurd ha h1

section
variable {R : ∀ {α : Type}, Res α → Res α → Prop} (hR : BindRel R)
include hR

theorem BindRel.ofOption {α : Type} (o : Option α) : R (Res.ofOption o) (Res.ofOption o) := by
  cases o with
  | none => exact hR.fail
  | some a => exact hR.ok a

theorem BindRel.withOption {α β : Type} {o : Option α} {k k' : α → Res β}
    (h : ∀ a, o = some a → R (k a) (k' a)) :
    R ((Res.ofOption o).bind k) ((Res.ofOption o).bind k') := by
  cases o with
  | none => exact hR.fail
  | some a => exact h a rfl

theorem BindRel.mapRes {α β : Type} (f f' : α → Res β) :
    ∀ l : List α, (∀ a ∈ l, R (f a) (f' a)) → R (mapRes f l) (mapRes f' l)
  | [], _ => hR.ok _
  | a :: t, h => hR.bind (h a (by simp)) (fun b => hR.bind
      (BindRel.mapRes f f' t (fun x hx => h x (by simp [hx]))) (fun bs => hR.ok _))

omit hR in
theorem RelOn.append {ev ev' : Ev N A} {ρ ρ' : Env N A} {a b : List (List Str × Val N A)} :
    RelOn R ev ev' ρ ρ' (a ++ b) ↔ RelOn R ev ev' ρ ρ' a ∧ RelOn R ev ev' ρ ρ' b := by
  constructor
  · intro h
    exact ⟨fun bs e he => h bs e (by simp [he]), fun bs e he => h bs e (by simp [he])⟩
  · rintro ⟨h1, h2⟩ bs e he
    rcases List.mem_append.mp he with he | he
    · exact h1 bs e he
    · exact h2 bs e he

omit hR in
theorem RelOn.cons {ev ev' : Ev N A} {ρ ρ' : Env N A} {bs : List Str} {e : Val N A}
    {b : List (List Str × Val N A)} :
    RelOn R ev ev' ρ ρ' ((bs, e) :: b) ↔
      (∀ σ σ' : Env N A, (∀ x, x ∉ bs → σ x = ρ x ∧ σ' x = ρ' x) → (∀ x ∈ bs, σ x = σ' x) →
        R (ev e σ) (ev' e σ')) ∧ RelOn R ev ev' ρ ρ' b := by
  constructor
  · intro h
    exact ⟨h bs e (by simp), fun bs' e' he => h bs' e' (by simp [he])⟩
  · rintro ⟨h1, h2⟩ bs' e' he
    rcases List.mem_cons.mp he with he | he
    · obtain ⟨rfl, rfl⟩ := Prod.mk.inj he
      exact h1
    · exact h2 bs' e' he

omit hR in
theorem RelOn.here {ev ev' : Ev N A} {ρ ρ' : Env N A} {l : List (List Str × Val N A)}
    (h : RelOn R ev ev' ρ ρ' l) {e : Val N A} (he : ([], e) ∈ l) : R (ev e ρ) (ev' e ρ') :=
  h [] e he ρ ρ' (fun _ _ => ⟨rfl, rfl⟩) (fun _ hx => absurd hx (by simp))

theorem RelOn.argument {ev ev' : Ev N A} {ρ ρ' : Env N A} {m : Items N A} {k : String}
    (h : RelOn R ev ev' ρ ρ' (field k [] m)) :
    R (argument ev m k ρ) (argument ev' m k ρ') := by
  unfold Expr.argument
  unfold field at h
  cases ha : assoc k.toList m with
  | none => exact hR.fail
  | some e =>
    rw [ha] at h
    exact h.here (by simp)

theorem RelOn.getAt {ev ev' : Ev N A} {ρ ρ' : Env N A} {m : Items N A} {k : String} {d : Val N A}
    (h : RelOn R ev ev' ρ ρ' (field k [] m)) (hd : ∀ σ σ' : Env N A, R (ev d σ) (ev' d σ')) :
    R (ev (get m k d) ρ) (ev' (get m k d) ρ') := by
  unfold Expr.get
  unfold field at h
  cases ha : assoc k.toList m with
  | none => exact hd _ _
  | some e =>
    rw [ha] at h
    exact h.here (by simp)

omit hR in
theorem RelOn.getBound {ev ev' : Ev N A} {ρ ρ' σ σ' : Env N A} {m : Items N A} {k : String}
    {d : Val N A} {bs : List Str}
    (h : RelOn R ev ev' ρ ρ' (field k bs m)) (hd : ∀ σ σ' : Env N A, R (ev d σ) (ev' d σ'))
    (h1 : ∀ x, x ∉ bs → σ x = ρ x ∧ σ' x = ρ' x) (h2 : ∀ x ∈ bs, σ x = σ' x) :
    R (ev (get m k d) σ) (ev' (get m k d) σ') := by
  unfold Expr.get
  unfold field at h
  cases ha : assoc k.toList m with
  | none => exact hd _ _
  | some e =>
    rw [ha] at h
    exact h bs e (by simp) σ σ' h1 h2

theorem RelOn.argumentBound {ev ev' : Ev N A} {ρ ρ' σ σ' : Env N A} {m : Items N A} {k : String}
    {bs : List Str} (h : RelOn R ev ev' ρ ρ' (field k bs m))
    (h1 : ∀ x, x ∉ bs → σ x = ρ x ∧ σ' x = ρ' x) (h2 : ∀ x ∈ bs, σ x = σ' x) :
    R (Expr.argument ev m k σ) (Expr.argument ev' m k σ') := by
  unfold Expr.argument
  unfold field at h
  cases ha : assoc k.toList m with
  | none => exact hR.fail
  | some e =>
    rw [ha] at h
    exact h bs e (by simp) σ σ' h1 h2

omit hR in
theorem RelOn.plain {ev ev' : Ev N A} {ρ ρ' : Env N A} {m : Items N A} {ks : List String}
    (h : RelOn R ev ev' ρ ρ' (plain ks m)) {k : String} (hk : k ∈ ks) :
    RelOn R ev ev' ρ ρ' (field k [] m) := by
  intro bs e he
  exact h bs e (List.mem_flatMap.mpr ⟨k, hk, he⟩)

/-- Sequencing steps and case distinctions. -/
macro "rel" hR:term : tactic => `(tactic|
  repeat' first
    | exact BindRel.ok $hR _
    | exact BindRel.fail $hR
    | exact BindRel.ofOption $hR _
    | assumption
    | refine BindRel.bind $hR ?_ (fun _ => ?_)
    | refine BindRel.mapRes $hR _ _ _ (fun _ _ => ?_)
    | split)

/-! ## Functions on values -/

theorem rel_flatten (v : Val N A) : R (flatten v) (flatten v) := by unfold flatten; rel hR
theorem rel_addition (O : Ops N A) (v : Val N A) : R (addition O v) (addition O v) := by
  unfold addition; rel hR
theorem rel_multiplication (O : Ops N A) (v : Val N A) :
    R (multiplication O v) (multiplication O v) := by unfold multiplication; rel hR
theorem rel_allTrue (O : Ops N A) (v : Val N A) : R (allTrue O v) (allTrue O v) := by
  unfold allTrue; rel hR
theorem rel_anyTrue (O : Ops N A) (v : Val N A) : R (anyTrue O v) (anyTrue O v) := by
  unfold anyTrue; rel hR
theorem rel_negation (O : Ops N A) (v : Val N A) : R (negation O v) (negation O v) := hR.ok _
theorem rel_keys (v : Val N A) : R (keys v) (keys v) := by unfold keys; rel hR
theorem rel_values (v : Val N A) : R (values v) (values v) := by unfold values; rel hR
theorem rel_enumerate (v : Val N A) : R (enumerate v) (enumerate v) := by unfold enumerate; rel hR
theorem rel_toSet (v : Val N A) : R (toSet v) (toSet v) := by unfold toSet; rel hR
theorem rel_reversed (v : Val N A) : R (reversed v) (reversed v) := by unfold reversed; rel hR
theorem rel_lengthOf (O : Ops N A) (v : Val N A) : R (lengthOf O v) (lengthOf O v) := by
  unfold lengthOf; rel hR
theorem rel_nubRight (O : Ops N A) (v : Val N A) : R (nubRight O v) (nubRight O v) := by
  unfold nubRight; rel hR
theorem rel_nubLeft (O : Ops N A) (v : Val N A) : R (nubLeft O v) (nubLeft O v) := by
  unfold nubLeft; rel hR
theorem rel_range (O : Ops N A) (v : Val N A) : R (range O v) (range O v) := by
  unfold range
  simp only
  rel hR
theorem rel_changeEnding (v w : Val N A) : R (changeEnding v w) (changeEnding v w) := by
  unfold changeEnding; rel hR
theorem rel_baseName (v : Val N A) : R (baseName v) (baseName v) := by unfold baseName; rel hR
theorem rel_join (a b : Bool) (v : Val N A) (s : Str) : R (join a b v s) (join a b v s) := by
  unfold join; rel hR
theorem rel_mapUnion (v : Val N A) : R (mapUnion v) (mapUnion v) := by unfold mapUnion; rel hR
theorem rel_disjointUnion (O : Ops N A) (v : Val N A) :
    R (disjointUnion O v) (disjointUnion O v) := by unfold disjointUnion; rel hR
theorem rel_concatTargetName (v w : Val N A) :
    R (concatTargetName v w) (concatTargetName v w) := by unfold concatTargetName; rel hR
theorem rel_stageItems (O : Ops N A) (fl : Bool) (g : Str → Str) :
    ∀ (m r : Items N A), R (stageItems O fl g m r) (stageItems O fl g m r)
  | [], _ => hR.ok _
  | (_, _) :: t, _ => by
    unfold stageItems
    split
    · exact rel_stageItems O fl g t _
    · split
      · exact rel_stageItems O fl g t _
      · exact hR.fail
theorem rel_toSubdir (O : Ops N A) (d s : Val N A) (b : Bool) :
    R (toSubdir O d s b) (toSubdir O d s b) := by
  unfold toSubdir
  refine hR.bind (hR.ofOption _) (fun _ => hR.bind (hR.ofOption _) (fun _ => hR.bind ?_ (fun _ => hR.ok _)))
  exact rel_stageItems hR O _ _ _ _
theorem rel_unstageItems (O : Ops N A) (sub : Str) :
    ∀ (m r : Items N A), R (unstageItems O sub m r) (unstageItems O sub m r)
  | [], _ => hR.ok _
  | (_, _) :: t, _ => by
    unfold unstageItems
    simp only
    split
    · split
      · exact rel_unstageItems O sub t _
      · split
        · exact rel_unstageItems O sub t _
        · exact hR.fail
    · exact rel_unstageItems O sub t _
theorem rel_fromSubdir (O : Ops N A) (d s : Val N A) :
    R (fromSubdir O d s) (fromSubdir O d s) := by
  unfold fromSubdir
  refine hR.bind (hR.ofOption _) (fun _ => hR.bind (hR.ofOption _) (fun _ => hR.bind ?_ (fun _ => hR.ok _)))
  exact rel_unstageItems hR O _ _ _
theorem rel_escapeChars (v w u : Val N A) : R (escapeChars v w u) (escapeChars v w u) := by
  unfold escapeChars; rel hR
theorem rel_zipMapGo : ∀ (l : List (Val N A × Val N A)) (r : Items N A),
    R (zipMapGo l r) (zipMapGo l r)
  | [], _ => hR.ok _
  | (_, _) :: t, _ => hR.bind (hR.ofOption _) (fun _ => rel_zipMapGo t _)

/-! ## Constructs -/

section
variable (looked : Items N A → List Str)

/-- A construct using no evaluation. -/
theorem good_const (sub : Items N A → List (List Str × Val N A)) (g : Items N A → Res (Val N A))
    (hg : ∀ m, R (g m) (g m)) : Good R sub looked (fun _ m _ => g m) :=
  fun _ _ m _ _ _ _ _ => hg m

theorem good_unary (f : Val N A → Res (Val N A)) (hf : ∀ v, R (f v) (f v)) :
    Good R (plain ["$1"]) looked (unary f) := by
  intro ev ev' m ρ ρ' h _ _
  exact hR.bind ((h.plain (k := "$1") (by simp)).argument hR) hf

theorem rel_logicalAnd (O : Ops N A) {ev ev' : Ev N A} {ρ ρ' : Env N A} :
    ∀ l : List (Val N A), (∀ e ∈ l, R (ev e ρ) (ev' e ρ')) →
      R (logicalAnd O ev ρ l) (logicalAnd O ev' ρ' l)
  | [], _ => hR.ok _
  | e :: t, h => by
    unfold logicalAnd
    refine hR.bind (h e (by simp)) (fun v => ?_)
    split
    · exact rel_logicalAnd O t (fun x hx => h x (by simp [hx]))
    · exact hR.ok _

theorem rel_logicalOr (O : Ops N A) {ev ev' : Ev N A} {ρ ρ' : Env N A} :
    ∀ l : List (Val N A), (∀ e ∈ l, R (ev e ρ) (ev' e ρ')) →
      R (logicalOr O ev ρ l) (logicalOr O ev' ρ' l)
  | [], _ => hR.ok _
  | e :: t, h => by
    unfold logicalOr
    refine hR.bind (h e (by simp)) (fun v => ?_)
    split
    · exact hR.ok _
    · exact rel_logicalOr O t (fun x hx => h x (by simp [hx]))

theorem good_and (O : Ops N A) : Good R logicalArgs looked (andExpr O) := by
  intro ev ev' m ρ ρ' h _ _
  unfold andExpr
  unfold logicalArgs at h
  cases ha : assoc "$1".toList m with
  | none => exact hR.ok _
  | some e =>
    simp only [ha] at h ⊢
    cases hl : e.list? with
    | some l =>
      simp only [hl] at h ⊢
      exact rel_logicalAnd hR O l (fun e he => h.here (by simp [he]))
    | none =>
      simp only [hl] at h ⊢
      exact hR.bind (h.here (by simp)) (rel_allTrue hR O)

theorem good_or (O : Ops N A) : Good R logicalArgs looked (orExpr O) := by
  intro ev ev' m ρ ρ' h _ _
  unfold orExpr
  unfold logicalArgs at h
  cases ha : assoc "$1".toList m with
  | none => exact hR.ok _
  | some e =>
    simp only [ha] at h ⊢
    cases hl : e.list? with
    | some l =>
      simp only [hl] at h ⊢
      exact rel_logicalOr hR O l (fun e he => h.here (by simp [he]))
    | none =>
      simp only [hl] at h ⊢
      exact hR.bind (h.here (by simp)) (rel_anyTrue hR O)

theorem good_var (hl : ∀ (m : Items N A) x, assoc "name".toList m = some (.str x) → x ∈ looked m) :
    Good R (plain ["default"]) looked varExpr := by
  intro ev ev' m ρ ρ' h hd hx
  unfold varExpr
  refine hR.withOption (fun e he => hR.withOption (fun x hs => ?_))
  rw [Val.eq_of_str? hs] at he
  rw [hx x (hl m x he)]
  split
  · exact (h.plain (k := "default") (by simp)).getAt hR (hd _ (by simp [IsDefault]))
  · exact hR.ok _

theorem good_quasiQuote_aux {ev ev' : Ev N A} {ρ ρ' : Env N A} (n : Nat) :
    (∀ v : Val N A, sizeOf v ≤ n → (∀ e ∈ unquoted v, R (ev e ρ) (ev' e ρ')) →
      R (expandEntry ev ρ v) (expandEntry ev' ρ' v) ∧ R (expand ev ρ v) (expand ev' ρ' v)) ∧
    (∀ l : List (Val N A), sizeOf l ≤ n → (∀ e ∈ unquotedList l, R (ev e ρ) (ev' e ρ')) →
      R (expandEntries ev ρ l) (expandEntries ev' ρ' l)) ∧
    (∀ m : List (Str × Val N A), sizeOf m ≤ n → (∀ e ∈ unquotedItems m, R (ev e ρ) (ev' e ρ')) →
      R (expandItems ev ρ m) (expandItems ev' ρ' m)) := by
  induction n with
  | zero =>
    refine ⟨fun v hv => ?_, fun l hl => ?_, fun m hm => ?_⟩
    · cases v <;> simp at hv
    · cases l <;> simp at hl
    · cases m <;> simp at hm
  | succ n ih =>
    obtain ⟨ihv, ihl, ihm⟩ := ih
    refine ⟨fun v hv h => ?_, fun l hl h => ?_, fun m hm h => ?_⟩
    · cases v with
      | list l =>
        have hl : sizeOf l ≤ n := by simp at hv; omega
        simp only [unquoted] at h
        constructor
        · unfold expandEntry
          exact hR.bind (ihl l hl h) (fun _ => hR.ok _)
        · unfold expand
          exact hR.bind (ihl l hl h) (fun _ => hR.ok _)
      | map m =>
        have hm : sizeOf m ≤ n := by simp at hv; omega
        simp only [unquoted] at h
        constructor
        · unfold expandEntry
          split
          · rename_i ht
            rw [if_pos (Or.inl ht)] at h
            split
            · exact hR.ok _
            · rename_i e he
              rw [he] at h
              exact hR.bind (h e (by simp)) (fun _ => hR.ok _)
          · split
            · rename_i ht
              rw [if_pos (Or.inr ht)] at h
              split
              · exact hR.ok _
              · rename_i e he
                rw [he] at h
                refine hR.bind (h e (by simp)) (fun v => ?_)
                cases v <;> first | exact hR.ok _ | exact hR.fail
            · rename_i h1 h2
              rw [if_neg (not_or.mpr ⟨h1, h2⟩)] at h
              exact hR.bind (ihm m hm h) (fun _ => hR.ok _)
        · unfold expand
          split
          · rename_i ht
            rw [if_pos (Or.inl ht)] at h
            split
            · exact hR.ok _
            · rename_i e he
              rw [he] at h
              exact h e (by simp)
          · split
            · exact hR.fail
            · rename_i h1 h2
              rw [if_neg (not_or.mpr ⟨h1, h2⟩)] at h
              exact hR.bind (ihm m hm h) (fun _ => hR.ok _)
      | _ =>
        constructor
        · unfold expandEntry
          exact hR.ok _
        · unfold expand
          exact hR.ok _
    · cases l with
      | nil => exact hR.ok _
      | cons v t =>
        have h1 : sizeOf v ≤ n := by simp at hl; omega
        have h2 : sizeOf t ≤ n := by simp at hl; omega
        simp only [unquotedList, List.mem_append] at h
        unfold expandEntries
        refine hR.bind (ihv v h1 (fun e he => h e (Or.inl he))).1 (fun _ => ?_)
        refine hR.bind (hR.ofOption _) (fun _ => ?_)
        exact hR.bind (ihl t h2 (fun e he => h e (Or.inr he))) (fun _ => hR.ok _)
    · cases m with
      | nil => exact hR.ok _
      | cons kv t =>
        obtain ⟨k, v⟩ := kv
        have h1 : sizeOf v ≤ n := by simp at hm; omega
        have h2 : sizeOf t ≤ n := by simp at hm; omega
        simp only [unquotedItems, List.mem_append] at h
        unfold expandItems
        refine hR.bind (ihv v h1 (fun e he => h e (Or.inl he))).2 (fun _ => ?_)
        exact hR.bind (ihm t h2 (fun e he => h e (Or.inr he))) (fun _ => hR.ok _)

theorem good_quasiQuote : Good R (fun m => (assoc "$1".toList m).toList.flatMap
    (fun e => (unquoted e).map (fun x => ([], x)))) looked (quasiQuoteExpr : Construct N A) := by
  intro ev ev' m ρ ρ' h _ _
  unfold quasiQuoteExpr
  cases ha : assoc "$1".toList m with
  | none => exact hR.ok _
  | some e =>
    simp only [ha] at h
    refine (((good_quasiQuote_aux hR (sizeOf e)).1 e (Nat.le_refl _)) (fun x hx => ?_)).2
    exact h.here (by simpa using hx)

/-- Argument of a plain construct. -/
macro "arg" hR:term "," h:term : tactic => `(tactic|
  exact RelOn.argument $hR (RelOn.plain $h (by simp)))

/-- Argument with default value of a plain construct. -/
macro "argd" hR:term "," h:term "," hd:term : tactic => `(tactic|
  exact RelOn.getAt $hR (RelOn.plain $h (by simp)) ($hd _ (by simp [IsDefault, lit])))

/-- Sequencing steps, case distinctions and arguments. -/
macro "relc" hR:term "," h:term "," hd:term : tactic => `(tactic|
  repeat' first
    | exact BindRel.ok $hR _
    | exact BindRel.fail $hR
    | exact BindRel.ofOption $hR _
    | arg $hR, $h
    | argd $hR, $h, $hd
    | refine BindRel.bind $hR ?_ (fun _ => ?_)
    | split)

theorem good_if (O : Ops N A) : Good R (plain ["cond", "then", "else"]) looked (ifExpr O) := by
  intro ev ev' m ρ ρ' h hd _
  unfold ifExpr
  relc hR, h, hd

theorem mem_pairsAt {m : Items N A} {k : String} {c p a b : Val N A} {l : List (Val N A)}
    (hc : assoc k.toList m = some c) (hl : c.list? = some l) (hp : p ∈ l) (hab : pair? p = some (a, b)) :
    ([], a) ∈ pairsAt k m ∧ ([], b) ∈ pairsAt k m := by
  unfold pairsAt entriesAt
  simp only [hc, Option.bind_some, hl, Option.getD_some, List.mem_flatMap]
  exact ⟨⟨p, hp, by simp [hab]⟩, ⟨p, hp, by simp [hab]⟩⟩

theorem rel_condGo (O : Ops N A) {ev ev' : Ev N A} {ρ ρ' : Env N A} :
    ∀ l : List (Val N A), (∀ p ∈ l, ∀ a b, pair? p = some (a, b) →
        R (ev a ρ) (ev' a ρ') ∧ R (ev b ρ) (ev' b ρ')) →
      R (condGo O ev ρ l) (condGo O ev' ρ' l)
  | [], _ => hR.ok _
  | p :: t, h => by
    unfold condGo
    refine hR.withOption (fun ab hab => ?_)
    obtain ⟨h1, h2⟩ := h p (by simp) ab.1 ab.2 hab
    refine hR.bind h1 (fun v => ?_)
    split
    · exact hR.bind h2 (fun _ => hR.ok _)
    · exact rel_condGo O t (fun x hx => h x (by simp [hx]))

theorem good_cond (O : Ops N A) :
    Good R (fun m => pairsAt "cond" m ++ plain ["default"] m) looked (condExpr O) := by
  intro ev ev' m ρ ρ' h hd _
  obtain ⟨h1, h2⟩ := RelOn.append.mp h
  unfold condExpr
  cases hc : assoc "cond".toList m with
  | none => argd hR, h2, hd
  | some c =>
    refine hR.withOption (fun l hl => hR.bind ?_ (fun r => ?_))
    · refine rel_condGo hR O l (fun p hp a b hab => ?_)
      obtain ⟨m1, m2⟩ := mem_pairsAt hR hc hl hp hab
      exact ⟨h1.here m1, h1.here m2⟩
    · split
      · exact hR.ok _
      · argd hR, h2, hd

theorem good_case : Good R (fun m =>
      (((assoc "case".toList m).bind Val.map?).getD []).map (fun kv => ([], kv.2))
        ++ plain ["expr", "default"] m) looked (caseExpr : Construct N A) := by
  intro ev ev' m ρ ρ' h hd _
  obtain ⟨h1, h2⟩ := RelOn.append.mp h
  unfold caseExpr
  cases hc : assoc "case".toList m with
  | none => argd hR, h2, hd
  | some c =>
    refine hR.withOption (fun cs hcs => hR.bind (by arg hR, h2) (fun k => ?_))
    refine hR.bind (hR.ofOption _) (fun s => ?_)
    split
    · rename_i e he
      refine h1.here ?_
      simp only [hc, Option.bind_some, hcs, Option.getD_some, List.mem_map]
      exact ⟨(s, e), assoc_some_mem he, rfl⟩
    · argd hR, h2, hd

theorem rel_caseGo (O : Ops N A) (cmp : Val N A) {ev ev' : Ev N A} {ρ ρ' : Env N A} :
    ∀ l : List (Val N A), (∀ p ∈ l, ∀ a b, pair? p = some (a, b) →
        R (ev a ρ) (ev' a ρ') ∧ R (ev b ρ) (ev' b ρ')) →
      R (caseGo O ev ρ cmp l) (caseGo O ev' ρ' cmp l)
  | [], _ => hR.ok _
  | p :: t, h => by
    unfold caseGo
    refine hR.withOption (fun ab hab => ?_)
    obtain ⟨h1, h2⟩ := h p (by simp) ab.1 ab.2 hab
    refine hR.bind h1 (fun v => ?_)
    split
    · exact hR.bind h2 (fun _ => hR.ok _)
    · exact rel_caseGo O cmp t (fun x hx => h x (by simp [hx]))

theorem good_seqCase (O : Ops N A) :
    Good R (fun m => pairsAt "case" m ++ plain ["expr", "default"] m) looked (seqCaseExpr O) := by
  intro ev ev' m ρ ρ' h hd _
  obtain ⟨h1, h2⟩ := RelOn.append.mp h
  unfold seqCaseExpr
  cases hc : assoc "case".toList m with
  | none => argd hR, h2, hd
  | some c =>
    refine hR.withOption (fun l hl => hR.bind (by arg hR, h2) (fun k => ?_))
    split
    · refine hR.bind ?_ (fun r => ?_)
      · refine rel_caseGo hR O _ l (fun p hp a b hab => ?_)
        obtain ⟨m1, m2⟩ := mem_pairsAt hR hc hl hp hab
        exact ⟨h1.here m1, h1.here m2⟩
      · split
        · exact hR.ok _
        · argd hR, h2, hd
    · exact hR.fail

theorem good_equal (O : Ops N A) : Good R (plain ["$1", "$2"]) looked (equalExpr O) := by
  intro ev ev' m ρ ρ' h hd _
  unfold equalExpr
  relc hR, h, hd

theorem good_changeEnding :
    Good R (plain ["$1", "ending"]) looked (changeEndingExpr : Construct N A) := by
  intro ev ev' m ρ ρ' h hd _
  unfold changeEndingExpr
  refine hR.bind (by argd hR, h, hd) (fun _ => hR.bind (by argd hR, h, hd) (fun _ => ?_))
  exact rel_changeEnding hR _ _

theorem good_join : Good R (plain ["$1", "separator"]) looked (joinExpr : Construct N A) := by
  intro ev ev' m ρ ρ' h hd _
  unfold joinExpr
  refine hR.bind (by argd hR, h, hd) (fun _ => hR.bind (by argd hR, h, hd) (fun _ => ?_))
  exact hR.bind (hR.ofOption _) (fun _ => rel_join hR _ _ _ _)

theorem good_joinCmd : Good R (plain ["$1"]) looked (joinCmdExpr : Construct N A) := by
  intro ev ev' m ρ ρ' h hd _
  unfold joinCmdExpr
  exact hR.bind (by argd hR, h, hd) (fun _ => rel_join hR _ _ _ _)

theorem good_jsonEncode (O : Ops N A) : Good R (plain ["$1"]) looked (jsonEncodeExpr O) := by
  intro ev ev' m ρ ρ' h hd _
  unfold jsonEncodeExpr
  relc hR, h, hd

theorem good_escapeChars :
    Good R (plain ["$1", "chars", "escape_prefix"]) looked (escapeCharsExpr : Construct N A) := by
  intro ev ev' m ρ ρ' h hd _
  unfold escapeCharsExpr
  refine hR.bind (by argd hR, h, hd) (fun _ => hR.bind (by argd hR, h, hd) (fun _ => ?_))
  exact hR.bind (by argd hR, h, hd) (fun _ => rel_escapeChars hR _ _ _)

theorem good_lookup : Good R (plain ["key", "map", "default"]) looked (lookupExpr : Construct N A) := by
  intro ev ev' m ρ ρ' h hd _
  unfold lookupExpr
  relc hR, h, hd

theorem good_arrayAccess (O : Ops N A) :
    Good R (plain ["index", "list", "default"]) looked (arrayAccessExpr O) := by
  intro ev ev' m ρ ρ' h hd _
  unfold arrayAccessExpr
  relc hR, h, hd

theorem good_singletonMap :
    Good R (plain ["key", "value"]) looked (singletonMapExpr : Construct N A) := by
  intro ev ev' m ρ ρ' h hd _
  unfold singletonMapExpr
  relc hR, h, hd

theorem good_toSubdir (O : Ops N A) :
    Good R (plain ["$1", "subdir", "flat"]) looked (toSubdirExpr O) := by
  intro ev ev' m ρ ρ' h hd _
  unfold toSubdirExpr
  refine hR.bind (by arg hR, h) (fun _ => hR.bind (by argd hR, h, hd) (fun _ => ?_))
  exact hR.bind (by argd hR, h, hd) (fun _ => rel_toSubdir hR O _ _ _)

theorem good_fromSubdir (O : Ops N A) :
    Good R (plain ["$1", "subdir"]) looked (fromSubdirExpr O) := by
  intro ev ev' m ρ ρ' h hd _
  unfold fromSubdirExpr
  exact hR.bind (by arg hR, h) (fun _ => hR.bind (by argd hR, h, hd)
    (fun _ => rel_fromSubdir hR O _ _))

omit hR in
theorem update_out {ρ : Env N A} {x y : Str} {v : Val N A} {bs : List Str} (hx : x ∈ bs)
    (hy : y ∉ bs) : (ρ.update x v) y = ρ y := by
  unfold Env.update
  rw [if_neg]
  rintro rfl
  exact hy hx

omit hR in
theorem mem_bound {m : Items N A} {k d : String} {x : Str}
    (h : (get m k (lit d)).str? = some x) : x ∈ bound k d m := by
  unfold bound
  simp [h]

omit hR in
theorem bound_eq {m : Items N A} {k d : String} {x : Str}
    (h : (get m k (lit d)).str? = some x) : bound k d m = [x] := by
  unfold bound
  simp [h]

theorem good_foreach :
    Good R (fun m => plain ["range"] m ++ field "body" (bound "var" "_" m) m) looked
      (foreachExpr : Construct N A) := by
  intro ev ev' m ρ ρ' h hd _
  obtain ⟨h1, h2⟩ := RelOn.append.mp h
  unfold foreachExpr
  refine hR.bind (by argd hR, h1, hd) (fun _ => hR.bind (hR.ofOption _) (fun l => ?_))
  split
  · exact hR.ok _
  · refine hR.bind (hR.mapRes _ _ _ (fun v _ => hR.withOption (fun x hx => ?_))) (fun _ => hR.ok _)
    rw [bound_eq hx] at h2
    refine h2.getBound (hd _ (by simp [IsDefault])) (fun y hy => ?_) (fun y hy => ?_)
    · exact ⟨update_out (by simp) hy, update_out (by simp) hy⟩
    · simp only [List.mem_singleton] at hy
      simp [Env.update, hy]

theorem good_foreachMap :
    Good R (fun m => ([], get m "range" emptyMapLit)
      :: field "body" (bound "var_key" "_" m ++ bound "var_val" "$_" m) m) looked
      (foreachMapExpr : Construct N A) := by
  intro ev ev' m ρ ρ' h hd _
  obtain ⟨h1, h2⟩ := RelOn.cons.mp h
  unfold foreachMapExpr
  refine hR.bind (h1 ρ ρ' (fun _ _ => ⟨rfl, rfl⟩) (fun _ hx => absurd hx (by simp))) (fun _ => hR.bind (hR.ofOption _) (fun l => ?_))
  split
  · exact hR.ok _
  · refine hR.bind (hR.mapRes _ _ _ (fun v _ => hR.withOption (fun x hx =>
      hR.withOption (fun y hy => ?_)))) (fun _ => hR.ok _)
    rw [bound_eq hx, bound_eq hy] at h2
    refine h2.getBound (hd _ (by simp [IsDefault])) (fun z hz => ?_) (fun z hz => ?_)
    · constructor <;> rw [update_out (by simp) hz, update_out (by simp) hz]
    · simp only [List.singleton_append, List.mem_cons, List.not_mem_nil, or_false] at hz
      unfold Env.update
      split
      · rfl
      · rcases hz with rfl | rfl
        · simp
        · contradiction

theorem good_zipWith :
    Good R (fun m => plain ["range_1", "range_2"] m
      ++ field "body" (bound "var_1" "$1" m ++ bound "var_2" "$2" m) m) looked
      (zipWithExpr : Construct N A) := by
  intro ev ev' m ρ ρ' h hd _
  obtain ⟨h1, h2⟩ := RelOn.append.mp h
  unfold zipWithExpr
  refine hR.bind (by argd hR, h1, hd) (fun _ => hR.bind (hR.ofOption _) (fun l => ?_))
  split
  · exact hR.ok _
  refine hR.bind (by argd hR, h1, hd) (fun _ => hR.bind (hR.ofOption _) (fun l => ?_))
  split
  · exact hR.ok _
  · refine hR.bind (hR.mapRes _ _ _ (fun v _ => hR.withOption (fun x hx =>
      hR.withOption (fun y hy => ?_)))) (fun _ => hR.ok _)
    rw [bound_eq hx, bound_eq hy] at h2
    refine h2.getBound (hd _ (by simp [IsDefault])) (fun z hz => ?_) (fun z hz => ?_)
    · constructor <;> rw [update_out (by simp) hz, update_out (by simp) hz]
    · simp only [List.singleton_append, List.mem_cons, List.not_mem_nil, or_false] at hz
      unfold Env.update
      split
      · rfl
      · rcases hz with rfl | rfl
        · simp
        · contradiction

theorem good_zipMap : Good R (plain ["range_key", "range_val"]) looked (zipMapExpr : Construct N A) := by
  intro ev ev' m ρ ρ' h hd _
  unfold zipMapExpr
  refine hR.bind (by argd hR, h, hd) (fun _ => hR.bind (hR.ofOption _) (fun l => ?_))
  split
  · exact hR.ok _
  refine hR.bind (by argd hR, h, hd) (fun _ => hR.bind (hR.ofOption _) (fun l => ?_))
  split
  · exact hR.ok _
  · exact hR.bind (rel_zipMapGo hR _ _) (fun _ => hR.ok _)

theorem rel_foldGo {ev ev' : Ev N A} {ρ ρ' : Env N A} {m : Items N A}
    (h : RelOn R ev ev' ρ ρ' (field "body" (bound "var" "_" m ++ bound "accum_var" "$1" m) m))
    (hd : ∀ d, IsDefault d → ∀ σ σ' : Env N A, R (ev d σ) (ev' d σ')) :
    ∀ (l : List (Val N A)) (acc : Val N A), R (foldGo ev ρ m l acc) (foldGo ev' ρ' m l acc)
  | [], _ => hR.ok _
  | v :: t, acc => by
    unfold foldGo
    refine hR.withOption (fun x hx => hR.withOption (fun y hy => hR.bind ?_
      (fun r => rel_foldGo h hd t r)))
    rw [bound_eq hx, bound_eq hy] at h
    refine h.getBound (hd _ (by simp [IsDefault])) (fun z hz => ?_) (fun z hz => ?_)
    · constructor <;> rw [update_out (by simp) hz, update_out (by simp) hz]
    · simp only [List.singleton_append, List.mem_cons, List.not_mem_nil, or_false] at hz
      unfold Env.update
      split
      · rfl
      · rcases hz with rfl | rfl
        · contradiction
        · simp

theorem good_foldLeft :
    Good R (fun m => plain ["range", "start"] m
      ++ field "body" (bound "var" "_" m ++ bound "accum_var" "$1" m) m) looked
      (foldLeftExpr : Construct N A) := by
  intro ev ev' m ρ ρ' h hd _
  obtain ⟨h1, h2⟩ := RelOn.append.mp h
  unfold foldLeftExpr
  refine hR.bind (by arg hR, h1) (fun _ => hR.bind (by argd hR, h1, hd) (fun _ => ?_))
  exact hR.bind (hR.ofOption _) (fun l => rel_foldGo hR h2 hd l _)

theorem rel_letGo {ev ev' : Ev N A} {ρ ρ' : Env N A} {m : Items N A}
    (hd : ∀ d, IsDefault d → ∀ σ σ' : Env N A, R (ev d σ) (ev' d σ')) :
    ∀ (l : List (Val N A)) (bs : List Str) (σ σ' : Env N A),
      RelOn R ev ev' ρ ρ' (letScope m l bs) →
      (∀ x, x ∉ bs → σ x = ρ x ∧ σ' x = ρ' x) → (∀ x ∈ bs, σ x = σ' x) →
      R ((letGo ev l σ).bind fun τ => ev (get m "body" (.map [])) τ)
        ((letGo ev' l σ').bind fun τ => ev' (get m "body" (.map [])) τ)
  | [], bs, σ, σ', h, h1, h2 => by
    unfold letScope at h
    exact h.getBound (hd _ (by simp [IsDefault])) h1 h2
  | b :: t, bs, σ, σ', h, h1, h2 => by
    unfold letScope at h
    unfold letGo
    have assoc_bind : ∀ {α β γ : Type} (r : Res α) (k : α → Res β) (k2 : β → Res γ),
        (r.bind k).bind k2 = r.bind (fun a => (k a).bind k2) := by
      intro α β γ r k k2
      cases r <;> rfl
    simp only [assoc_bind]
    refine hR.withOption (fun xe hxe => hR.withOption (fun x hx => ?_))
    simp only [hxe, Option.toList_some, List.flatMap_cons, List.flatMap_nil, List.append_nil, hx,
      RelOn.cons] at h
    refine hR.bind (h.1 σ σ' h1 h2) (fun v => ?_)
    refine rel_letGo hd t _ _ _ h.2 (fun y hy => ?_) (fun y hy => ?_)
    · simp only [List.singleton_append, List.mem_cons, not_or] at hy
      unfold Env.update
      rw [if_neg hy.1, if_neg hy.1]
      exact h1 y hy.2
    · simp only [List.singleton_append, List.mem_cons] at hy
      unfold Env.update
      split
      · rfl
      · rcases hy with hy | hy
        · contradiction
        · exact h2 y hy

theorem good_let : Good R (fun m => letScope m (entriesAt "bindings" m) []) looked
    (letExpr : Construct N A) := by
  intro ev ev' m ρ ρ' h hd _
  unfold letExpr
  unfold entriesAt at h
  cases hb : assoc "bindings".toList m with
  | none =>
    simp only [hb, Option.bind_none, Option.getD_none, letScope] at h
    exact h.getAt hR (hd _ (by simp [IsDefault]))
  | some b =>
    simp only [hb, Option.bind_some] at h
    refine hR.withOption (fun l hl => ?_)
    rw [hl] at h
    exact rel_letGo hR hd l [] ρ ρ' h (fun _ _ => ⟨rfl, rfl⟩) (fun _ hx => absurd hx (by simp))

theorem mapRes_str_ok : ∀ {l : List (Val N A)} {xs : List Str},
    mapRes (fun e => Res.ofOption e.str?) l = .ok xs → xs = l.flatMap (fun e => e.str?.toList)
  | [], xs, h => by
    simp only [mapRes, Res.ok.injEq] at h
    simp [← h]
  | e :: t, xs, h => by
    unfold mapRes at h
    cases he : e.str? with
    | none => simp [he, Res.ofOption, Res.bind] at h
    | some s =>
      simp only [he, Res.ofOption, Res.bind] at h
      obtain ⟨r, hr⟩ : ∃ r, mapRes (fun e : Val N A => Res.ofOption e.str?) t = r := ⟨_, rfl⟩
      cases r with
      | ok ys =>
        have := mapRes_str_ok hr
        simp only [Res.ofOption] at hr
        simp only [hr, Res.ok.injEq] at h
        simp [← h, he, ← this]
      | fail =>
        simp only [Res.ofOption] at hr
        simp [hr] at h
      | timeout =>
        simp only [Res.ofOption] at hr
        simp [hr] at h

theorem good_env (sub : Items N A → List (List Str × Val N A))
    (hl : ∀ (m : Items N A) x, x ∈ (entriesAt "vars" m).flatMap (fun e => e.str?.toList) →
      x ∈ looked m) : Good R sub looked envExpr := by
  intro ev ev' m ρ ρ' _ _ hx
  unfold envExpr
  cases hv : assoc "vars".toList m with
  | none => exact hR.ok _
  | some v =>
    refine hR.withOption (fun l hlst => ?_)
    have hself : R (mapRes (fun e => Res.ofOption e.str?) l) (mapRes (fun e => Res.ofOption e.str?) l) :=
      hR.mapRes _ _ _ (fun _ _ => hR.ofOption _)
    obtain ⟨r, hr⟩ : ∃ r, mapRes (fun e : Val N A => Res.ofOption e.str?) l = r := ⟨_, rfl⟩
    rw [hr] at hself ⊢
    cases r with
    | ok xs =>
      have hxs := mapRes_str_ok hR hr
      have hagree : ∀ x ∈ xs, ρ x = ρ' x := by
        intro x hmem
        refine hx x (hl m x ?_)
        unfold entriesAt
        simp only [hv, Option.bind_some, hlst, Option.getD_some]
        rw [← hxs]
        exact hmem
      have : ∀ (ys : List Str) (r : Items N A), (∀ x ∈ ys, ρ x = ρ' x) →
          ys.foldl (fun r x => OMap.insertList (fun old _ => old) x (ρ x) r) r
            = ys.foldl (fun r x => OMap.insertList (fun old _ => old) x (ρ' x) r) r := by
        intro ys
        induction ys with
        | nil => intro r _; rfl
        | cons y t ih =>
          intro r h
          simp only [List.foldl_cons]
          rw [h y (by simp)]
          exact ih _ (fun x hx => h x (by simp [hx]))
      simp only [Res.bind]
      rw [this xs [] hagree]
      exact hR.ok _
    | fail => exact hR.fail
    | timeout => exact hR.bind hself (fun a => by
        exact absurd hr (mapRes_ne_timeout _ _ (fun a => by cases a.str? <;> simp [Res.ofOption])))

theorem good_concatTargetName :
    Good R (plain ["$1", "$2"]) looked (concatTargetNameExpr : Construct N A) := by
  intro ev ev' m ρ ρ' h hd _
  unfold concatTargetNameExpr
  refine hR.bind (by argd hR, h, hd) (fun _ => hR.bind (by argd hR, h, hd) (fun _ => ?_))
  exact hR.bind (rel_join hR _ _ _ _) (fun _ => rel_concatTargetName hR _ _)

theorem good_context : Good R (plain ["$1"]) looked (contextExpr : Construct N A) := by
  intro ev ev' m ρ ρ' h hd _
  unfold contextExpr
  argd hR, h, hd

theorem good_disjointUnion (O : Ops N A) : Good R (plain ["$1"]) looked (disjointUnionExpr O) := by
  intro ev ev' m ρ ρ' h hd _
  exact hR.bind (by arg hR, h) (rel_disjointUnion hR O)

theorem good_fail : Good R (plain ["msg"]) looked (failExpr : Construct N A) := by
  intro ev ev' m ρ ρ' h hd _
  unfold failExpr
  relc hR, h, hd

theorem good_assert (O : Ops N A) :
    Good R (fun m => plain ["$1"] m ++ field "predicate" (bound "var" "_" m) m) looked
      (assertExpr O) := by
  intro ev ev' m ρ ρ' h hd _
  obtain ⟨h1, h2⟩ := RelOn.append.mp h
  unfold assertExpr
  refine hR.bind (by arg hR, h1) (fun v => hR.withOption (fun x hx => hR.bind ?_ (fun p => ?_)))
  · rw [bound_eq hx] at h2
    refine h2.argumentBound hR (fun y hy => ?_) (fun y hy => ?_)
    · exact ⟨update_out (by simp) hy, update_out (by simp) hy⟩
    · simp only [List.mem_singleton] at hy
      simp [Env.update, hy]
  · split
    · exact hR.ok _
    · exact hR.fail

theorem good_assertNonEmpty : Good R (plain ["$1"]) looked (assertNonEmptyExpr : Construct N A) := by
  intro ev ev' m ρ ρ' h hd _
  unfold assertNonEmptyExpr
  relc hR, h, hd

end

/-- Variables looked up by a built-in construct itself. -/
def builtInLookup (ty : Str) (m : Items N A) : List Str :=
  if ty = "var".toList then ((assoc "name".toList m).bind Val.str?).toList
  else if ty = "env".toList then (entriesAt "vars" m).flatMap (fun e => e.str?.toList)
  else []

theorem good_builtIn (O : Ops N A) {ty : Str} {c : Construct N A}
    (h : assoc ty (builtIns O) = some c) :
    ∃ s, assoc ty scopes = some s ∧ Good R s (builtInLookup ty) c := by
  have hmem := assoc_some_mem h
  clear h
  simp only [builtIns, List.mem_cons, Prod.mk.injEq, List.not_mem_nil, or_false] at hmem
  rcases hmem with ⟨rfl, rfl⟩ | ⟨rfl, rfl⟩ | ⟨rfl, rfl⟩ | ⟨rfl, rfl⟩ | ⟨rfl, rfl⟩ | ⟨rfl, rfl⟩
    | ⟨rfl, rfl⟩ | ⟨rfl, rfl⟩ | ⟨rfl, rfl⟩ | ⟨rfl, rfl⟩ | ⟨rfl, rfl⟩ | ⟨rfl, rfl⟩ | ⟨rfl, rfl⟩
    | ⟨rfl, rfl⟩ | ⟨rfl, rfl⟩ | ⟨rfl, rfl⟩ | ⟨rfl, rfl⟩ | ⟨rfl, rfl⟩ | ⟨rfl, rfl⟩ | ⟨rfl, rfl⟩
    | ⟨rfl, rfl⟩ | ⟨rfl, rfl⟩ | ⟨rfl, rfl⟩ | ⟨rfl, rfl⟩ | ⟨rfl, rfl⟩ | ⟨rfl, rfl⟩ | ⟨rfl, rfl⟩
    | ⟨rfl, rfl⟩ | ⟨rfl, rfl⟩ | ⟨rfl, rfl⟩ | ⟨rfl, rfl⟩ | ⟨rfl, rfl⟩ | ⟨rfl, rfl⟩ | ⟨rfl, rfl⟩
    | ⟨rfl, rfl⟩ | ⟨rfl, rfl⟩ | ⟨rfl, rfl⟩ | ⟨rfl, rfl⟩ | ⟨rfl, rfl⟩ | ⟨rfl, rfl⟩ | ⟨rfl, rfl⟩
    | ⟨rfl, rfl⟩ | ⟨rfl, rfl⟩ | ⟨rfl, rfl⟩ | ⟨rfl, rfl⟩ | ⟨rfl, rfl⟩ | ⟨rfl, rfl⟩ | ⟨rfl, rfl⟩
    | ⟨rfl, rfl⟩ | ⟨rfl, rfl⟩ | ⟨rfl, rfl⟩
  · refine ⟨_, rfl, good_var hR _ (fun m x hx => ?_)⟩
    unfold builtInLookup
    rw [if_pos rfl, hx]
    simp [Val.str?]
  · exact ⟨_, rfl, good_const hR _ _ _ (fun _ => hR.ok _)⟩
  · exact ⟨_, rfl, good_quasiQuote hR _⟩
  · exact ⟨_, rfl, good_const hR _ _ _ (fun _ => hR.fail)⟩
  · exact ⟨_, rfl, good_const hR _ _ _ (fun _ => hR.fail)⟩
  · exact ⟨_, rfl, good_if hR _ O⟩
  · exact ⟨_, rfl, good_cond hR _ O⟩
  · exact ⟨_, rfl, good_case hR _⟩
  · exact ⟨_, rfl, good_seqCase hR _ O⟩
  · exact ⟨_, rfl, good_fail hR _⟩
  · exact ⟨_, rfl, good_assert hR _ O⟩
  · exact ⟨_, rfl, good_assertNonEmpty hR _⟩
  · exact ⟨_, rfl, good_context hR _⟩
  · exact ⟨_, rfl, good_equal hR _ O⟩
  · exact ⟨_, rfl, good_and hR _ O⟩
  · exact ⟨_, rfl, good_or hR _ O⟩
  · exact ⟨_, rfl, good_unary hR _ _ (rel_negation hR O)⟩
  · exact ⟨_, rfl, good_unary hR _ _ (rel_flatten hR)⟩
  · exact ⟨_, rfl, good_unary hR _ _ (rel_addition hR O)⟩
  · exact ⟨_, rfl, good_unary hR _ _ (rel_multiplication hR O)⟩
  · exact ⟨_, rfl, good_unary hR _ _ (rel_nubRight hR O)⟩
  · exact ⟨_, rfl, good_unary hR _ _ (rel_nubLeft hR O)⟩
  · exact ⟨_, rfl, good_unary hR _ _ (rel_range hR O)⟩
  · exact ⟨_, rfl, good_changeEnding hR _⟩
  · exact ⟨_, rfl, good_unary hR _ _ (rel_baseName hR)⟩
  · exact ⟨_, rfl, good_join hR _⟩
  · exact ⟨_, rfl, good_joinCmd hR _⟩
  · exact ⟨_, rfl, good_jsonEncode hR _ O⟩
  · exact ⟨_, rfl, good_escapeChars hR _⟩
  · exact ⟨_, rfl, good_unary hR _ _ (rel_keys hR)⟩
  · exact ⟨_, rfl, good_unary hR _ _ (rel_enumerate hR)⟩
  · exact ⟨_, rfl, good_unary hR _ _ (rel_toSet hR)⟩
  · exact ⟨_, rfl, good_unary hR _ _ (rel_reversed hR)⟩
  · exact ⟨_, rfl, good_unary hR _ _ (rel_lengthOf hR O)⟩
  · exact ⟨_, rfl, good_unary hR _ _ (rel_values hR)⟩
  · exact ⟨_, rfl, good_lookup hR _⟩
  · exact ⟨_, rfl, good_arrayAccess hR _ O⟩
  · exact ⟨_, rfl, good_const hR _ _ _ (fun _ => hR.ok _)⟩
  · exact ⟨_, rfl, good_singletonMap hR _⟩
  · exact ⟨_, rfl, good_disjointUnion hR _ O⟩
  · exact ⟨_, rfl, good_unary hR _ _ (rel_mapUnion hR)⟩
  · exact ⟨_, rfl, good_toSubdir hR _ O⟩
  · exact ⟨_, rfl, good_fromSubdir hR _ O⟩
  · exact ⟨_, rfl, good_foreach hR _⟩
  · exact ⟨_, rfl, good_foreachMap hR _⟩
  · exact ⟨_, rfl, good_zipWith hR _⟩
  · exact ⟨_, rfl, good_zipMap hR _⟩
  · exact ⟨_, rfl, good_foldLeft hR _⟩
  · exact ⟨_, rfl, good_let hR _⟩
  · refine ⟨_, rfl, good_env hR _ _ (fun m x hx => ?_)⟩
    unfold builtInLookup
    rw [if_neg (by decide), if_pos rfl]
    exact hx
  · exact ⟨_, rfl, good_concatTargetName hR _⟩

theorem good_regular (r : Regular N A) :
    Good R (fun m => r.keys.flatMap (fun k => (assoc k m).toList.map (fun e => ([], e))))
      (fun _ => []) r.construct := by
  intro ev ev' m ρ ρ' h _ _
  unfold Regular.construct
  induction r.prog with
  | done o => exact hR.ofOption _
  | need k next ih =>
    simp only [Prog.run]
    split
    · rename_i hk
      cases ha : assoc k m with
      | none => exact ih _
      | some e =>
        refine hR.bind (h.here ?_) (fun _ => ih _)
        exact List.mem_flatMap.mpr ⟨k, hk, by simp [ha]⟩
    · exact hR.fail
  | raw k next ih => exact ih _

/-- One step of evaluation, given an evaluator for subterms and for imported functions. -/
def step (O : Ops N A) (f : Fn N A) (ev : Ev N A) (call : Fn N A → Env N A → Res (Val N A))
    (e : Val N A) (ρ : Env N A) : Res (Val N A) :=
  match e with
  | .list l => (mapRes (fun x => ev x ρ) l).bind fun vs => .ok (.list vs)
  | .map m =>
    (Res.ofOption (assoc "type".toList m)).bind fun t =>
      (Res.ofOption t.str?).bind fun ty =>
        if ty = "CALL_EXPRESSION".toList then
          (Res.ofOption (assoc "name".toList m)).bind fun g =>
            (Res.ofOption g.str?).bind fun name =>
              match findFn name f.imports with
              | none => .fail
              | some g => call g (ρ.prune g.vars)
        else
          match O.provided ty with
          | some r => r.construct ev m ρ
          | none =>
            match assoc ty (builtIns O) with
            | some c => c ev m ρ
            | none => .fail
  | v => .ok v

omit hR in
theorem eval_succ (O : Ops N A) (n : Nat) (f : Fn N A) (e : Val N A) (ρ : Env N A) :
    eval O (n + 1) f e ρ = step O f (eval O n f) (fun g σ => eval O n g g.expr σ) e ρ := by
  cases e <;> rfl

theorem rel_step (O : Ops N A) (f : Fn N A) {ev ev' : Ev N A} {call call' : Fn N A → Env N A → Res (Val N A)}
    (e : Val N A) (ρ ρ' : Env N A)
    (hlist : ∀ l, e = .list l → ∀ x ∈ l, R (ev x ρ) (ev' x ρ'))
    (hsub : ∀ m ty, e = .map m → assoc "type".toList m = some (.str ty) →
      RelOn R ev ev' ρ ρ' (subterms O ty m))
    (hd : ∀ m, e = .map m → ∀ d, IsDefault d → ∀ σ σ' : Env N A, R (ev d σ) (ev' d σ'))
    (hx : ∀ m ty, e = .map m → assoc "type".toList m = some (.str ty) →
      ∀ x ∈ lookedUp O f ty m, ρ x = ρ' x)
    (hcall : ∀ m name g, e = .map m → findFn name f.imports = some g → ∀ σ : Env N A,
      R (call g σ) (call' g σ)) :
    R (step O f ev call e ρ) (step O f ev' call' e ρ') := by
  cases e with
  | list l => exact hR.bind (hR.mapRes _ _ _ (fun x hx => hlist l rfl x hx)) (fun _ => hR.ok _)
  | map m =>
    refine hR.withOption (fun t ht => hR.withOption (fun ty hty => ?_))
    rw [Val.eq_of_str? hty] at ht
    have hsub := hsub m ty rfl ht
    have hx := hx m ty rfl ht
    have hd := hd m rfl
    unfold subterms at hsub
    unfold lookedUp at hx
    split
    · rename_i hc
      rw [if_pos hc] at hx
      refine hR.withOption (fun g hg => hR.withOption (fun name hname => ?_))
      cases hf : findFn name f.imports with
      | none => exact hR.fail
      | some g' =>
        simp only
        have : ρ.prune g'.vars = ρ'.prune g'.vars := by
          funext y
          unfold Env.prune
          split
          · rename_i hy
            refine hx y ?_
            simp only [hg, Option.bind_some, hname, hf, Option.elim_some]
            exact hy
          · rfl
        rw [this]
        exact hcall m name g' rfl hf _
    · rename_i hc
      rw [if_neg hc] at hx hsub
      cases hp : O.provided ty with
      | some r =>
        simp only [hp] at hsub
        exact good_regular hR r ev ev' m ρ ρ' hsub hd (fun x hx => absurd hx (by simp))
      | none =>
        simp only [hp, Option.isSome_none, Bool.false_eq_true, if_false] at hsub hx
        cases hb : assoc ty (builtIns O) with
        | none => exact hR.fail
        | some c =>
          obtain ⟨s, hs, hgood⟩ := good_builtIn hR O hb
          rw [hs] at hsub
          exact hgood ev ev' m ρ ρ' hsub hd hx
  | _ => exact hR.ok _

end
end Verif.Expr
