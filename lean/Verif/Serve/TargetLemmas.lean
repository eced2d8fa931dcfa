import Verif.Serve.Target

/-!
# Lemmas about export targets built on request
-/

namespace Verif.Serve

open Verif

variable {S K V O : Type}

/-- An export target built without any cache, with fuel. -/
def builtN (B : Builds S K V O) (s : S) : Nat → K → Option (Entry K V)
  | 0, _ => none
  | n + 1, k =>
    (mapAll (builtN B s n) (B.deps k)).bind fun es =>
      (B.make s k (es.map (·.value))).map fun v => ⟨v, k :: es.flatMap (·.implied)⟩

/-- The entry is what building the target with the execution properties gives, if no cache is used. -/
def Built (B : Builds S K V O) (s : S) (k : K) (e : Entry K V) : Prop := ∃ n, builtN B s n k = some e

/-- `i` is among the targets needed for `k`. -/
inductive Needs (B : Builds S K V O) : K → K → Prop
  | refl (k : K) : Needs B k k
  | step {k j i : K} : j ∈ B.deps k → Needs B j i → Needs B k i

/-- Every entry is for the execution properties of its shard. -/
def Right (B : Builds S K V O) (w : Endpoint S K V O) : Prop :=
  ∀ s k e, w.tc s k = some e → Built B s k e

/-- With an entry, the shard has one for every implied export target. -/
def Closed (w : Endpoint S K V O) : Prop :=
  ∀ s k e, w.tc s k = some e → ∀ i ∈ e.implied, ∃ e', w.tc s i = some e'

/-- The artifacts of all entries are in the local storage. -/
def Stored (B : Builds S K V O) (w : Endpoint S K V O) : Prop :=
  ∀ s k e, w.tc s k = some e → ∀ o ∈ B.objects e.value e.implied, o ∈ w.cas

/-- The request is for the execution properties of the endpoint itself, or the endpoint has no entries for its own
properties among the targets needed. -/
def Fits (B : Builds S K V O) (w : Endpoint S K V O) (q : S) (k : K) : Prop :=
  q = w.own ∨ ∀ i, Needs B k i → w.tc w.own i = none

theorem mapAll_some_iff {α β : Type} {f : α → Option β} {l : List α} {bs : List β} :
    mapAll f l = some bs ↔ List.Forall₂ (fun a b => f a = some b) l bs := by
  induction l generalizing bs with
  | nil =>
    simp only [mapAll, Option.some.injEq]
    constructor
    · rintro rfl; exact .nil
    · intro h; cases h; rfl
  | cons a l ih =>
    simp only [mapAll, Option.bind_eq_some_iff, Option.map_eq_some_iff]
    constructor
    · rintro ⟨b, hb, bs', h, rfl⟩
      exact .cons hb (ih.mp h)
    · intro h
      cases h with
      | cons hb h => exact ⟨_, hb, _, ih.mpr h, rfl⟩

theorem forall₂_imp_mem {α β : Type} {R R' : α → β → Prop} {l : List α} {bs : List β} (h : List.Forall₂ R l bs)
    (hi : ∀ a ∈ l, ∀ b ∈ bs, R a b → R' a b) : List.Forall₂ R' l bs := by
  induction h with
  | nil => exact .nil
  | cons hb h ih =>
    refine .cons (hi _ (by simp) _ (by simp) hb) (ih fun a ha b hb' => hi a (by simp [ha]) b (by simp [hb']))

theorem forall₂_mem_right {α β : Type} {R : α → β → Prop} {l : List α} {bs : List β} (h : List.Forall₂ R l bs)
    {b : β} (hb : b ∈ bs) : ∃ a ∈ l, R a b := by
  induction h with
  | nil => cases hb
  | cons hr h ih =>
    rcases List.mem_cons.mp hb with rfl | hb
    · exact ⟨_, by simp, hr⟩
    · obtain ⟨a, ha, hr'⟩ := ih hb
      exact ⟨a, by simp [ha], hr'⟩

theorem forall₂_mem_left {α β : Type} {R : α → β → Prop} {l : List α} {bs : List β} (h : List.Forall₂ R l bs)
    {a : α} (ha : a ∈ l) : ∃ b ∈ bs, R a b := by
  induction h with
  | nil => cases ha
  | cons hr h ih =>
    rcases List.mem_cons.mp ha with rfl | ha
    · exact ⟨_, by simp, hr⟩
    · obtain ⟨b, hb, hr'⟩ := ih ha
      exact ⟨b, by simp [hb], hr'⟩

theorem builtN_succ {B : Builds S K V O} {s : S} {n : Nat} {k : K} {e : Entry K V} :
    builtN B s (n + 1) k = some e ↔ ∃ es, List.Forall₂ (fun j e' => builtN B s n j = some e') (B.deps k) es ∧
      ∃ v, B.make s k (es.map (·.value)) = some v ∧ e = ⟨v, k :: es.flatMap (·.implied)⟩ := by
  simp only [builtN, Option.bind_eq_some_iff, Option.map_eq_some_iff, mapAll_some_iff]
  constructor <;> rintro ⟨es, h, v, hv, he⟩ <;> exact ⟨es, h, v, hv, he.symm⟩

theorem builtN_mono {B : Builds S K V O} {s : S} {n m : Nat} (h : n ≤ m) {k : K} {e : Entry K V}
    (hb : builtN B s n k = some e) : builtN B s m k = some e := by
  induction n generalizing m k e with
  | zero => simp [builtN] at hb
  | succ n ih =>
    obtain ⟨m, rfl⟩ : ∃ m', m = m' + 1 := ⟨m - 1, by omega⟩
    obtain ⟨es, hes, v, hv, rfl⟩ := builtN_succ.mp hb
    exact builtN_succ.mpr ⟨es, forall₂_imp_mem hes fun a _ b _ => ih (by omega), v, hv, rfl⟩

theorem built_unique {B : Builds S K V O} {s : S} {k : K} {e e' : Entry K V} (h : Built B s k e)
    (h' : Built B s k e') : e = e' := by
  obtain ⟨n, h⟩ := h
  obtain ⟨m, h'⟩ := h'
  have h1 := builtN_mono (Nat.le_max_left n m) h
  rw [builtN_mono (Nat.le_max_right n m) h'] at h1
  exact (Option.some.inj h1).symm

/-- A target is built from targets that are built. -/
theorem built_of {B : Builds S K V O} {s : S} {k : K} {es : List (Entry K V)} {v : V}
    (h : List.Forall₂ (Built B s) (B.deps k) es) (hv : B.make s k (es.map (·.value)) = some v) :
    Built B s k ⟨v, k :: es.flatMap (·.implied)⟩ := by
  have h1 : ∃ n, List.Forall₂ (fun j e' => builtN B s n j = some e') (B.deps k) es := by
    clear hv
    generalize B.deps k = ds at h
    induction h with
    | nil => exact ⟨0, .nil⟩
    | cons ha h ih =>
      obtain ⟨n, hn⟩ := ih
      obtain ⟨m, hm⟩ := ha
      exact ⟨max n m, .cons (builtN_mono (Nat.le_max_right n m) hm)
        (forall₂_imp_mem hn fun a _ b _ => builtN_mono (Nat.le_max_left n m))⟩
  obtain ⟨n, hn⟩ := h1
  exact ⟨n + 1, builtN_succ.mpr ⟨es, hn, v, hv, rfl⟩⟩

theorem forall₂_map_right {α β γ : Type} {R : α → γ → Prop} {f : β → γ} {l : List α} {bs : List β} :
    List.Forall₂ R l (bs.map f) ↔ List.Forall₂ (fun a b => R a (f b)) l bs := by
  induction bs generalizing l with
  | nil =>
    constructor <;> intro h <;> cases h <;> exact .nil
  | cons b bs ih =>
    constructor
    · intro h
      cases h with
      | cons hb h => exact .cons hb (ih.mp h)
    · intro h
      cases h with
      | cons hb h => exact .cons hb (ih.mpr h)

/-! ## Analysis -/

theorem analyse_succ_none {B : Builds S K V O} {q : S} {read : K → Option (Entry K V)} {n : Nat} {k : K}
    {r : Entry K V × List (K × Entry K V)} (hk : read k = none) :
    analyse B q read (n + 1) k = some r ↔
      ∃ rs, List.Forall₂ (fun j r' => analyse B q read n j = some r') (B.deps k) rs ∧
        ∃ v, B.make q k (rs.map (·.1.value)) = some v ∧
          r = (⟨v, k :: rs.flatMap (·.1.implied)⟩, rs.flatMap (·.2) ++ [(k, ⟨v, k :: rs.flatMap (·.1.implied)⟩)]) := by
  simp only [analyse, hk, Option.bind_eq_some_iff, Option.map_eq_some_iff, mapAll_some_iff]
  constructor <;> rintro ⟨es, h, v, hv, he⟩ <;> exact ⟨es, h, v, hv, he.symm⟩

theorem analyse_succ_some {B : Builds S K V O} {q : S} {read : K → Option (Entry K V)} {n : Nat} {k : K}
    {e : Entry K V} (hk : read k = some e) : analyse B q read (n + 1) k = some (e, []) := by
  simp only [analyse, hk]

theorem analyse_right {B : Builds S K V O} {q : S} {read : K → Option (Entry K V)} {n : Nat} {k : K}
    {r : Entry K V × List (K × Entry K V)} (hr : ∀ i e, Needs B k i → read i = some e → Built B q i e)
    (h : analyse B q read n k = some r) :
    Built B q k r.1 ∧ ∀ p ∈ r.2, Built B q p.1 p.2 := by
  induction n generalizing k r with
  | zero => simp [analyse] at h
  | succ n ih =>
    cases hk : read k with
    | some e =>
      rw [analyse_succ_some hk] at h
      cases Option.some.inj h
      exact ⟨hr _ _ (.refl k) hk, by simp⟩
    | none =>
      obtain ⟨rs, hrs, v, hv, rfl⟩ := (analyse_succ_none hk).mp h
      have h1 : ∀ j ∈ B.deps k, ∀ r' ∈ rs, analyse B q read n j = some r' →
          Built B q j r'.1 ∧ ∀ p ∈ r'.2, Built B q p.1 p.2 :=
        fun j hj r' _ hr' => ih (fun i e hi => hr i e (.step hj hi)) hr'
      have h2 : Built B q k ⟨v, k :: rs.flatMap (·.1.implied)⟩ := by
        have h3 : List.Forall₂ (Built B q) (B.deps k) (rs.map (·.1)) :=
          forall₂_map_right.mpr (forall₂_imp_mem hrs fun a ha b hb h => (h1 a ha b hb h).1)
        have h4 := built_of h3 (v := v) (by rw [List.map_map]; exact hv)
        rwa [List.flatMap_map] at h4
      refine ⟨h2, fun p hp => ?_⟩
      rcases List.mem_append.mp hp with hp | hp
      · obtain ⟨r', hr', hp⟩ := List.mem_flatMap.mp hp
        obtain ⟨j, hj, ha⟩ := forall₂_mem_right hrs hr'
        exact (h1 j hj r' hr' ha).2 p hp
      · cases List.mem_singleton.mp hp
        exact h2

theorem analyse_complete {B : Builds S K V O} {q : S} {read : K → Option (Entry K V)} {n : Nat} {k : K}
    {e : Entry K V} (hr : ∀ i e, Needs B k i → read i = some e → Built B q i e) (h : builtN B q n k = some e) :
    ∃ new, analyse B q read n k = some (e, new) := by
  induction n generalizing k e with
  | zero => simp [builtN] at h
  | succ n ih =>
    cases hk : read k with
    | some e' =>
      rw [analyse_succ_some hk, built_unique (hr _ _ (.refl k) hk) ⟨n + 1, h⟩]
      exact ⟨_, rfl⟩
    | none =>
      obtain ⟨es, hes, v, hv, rfl⟩ := builtN_succ.mp h
      have h1 : ∃ rs : List (Entry K V × List (K × Entry K V)), rs.map (·.1) = es ∧
          List.Forall₂ (fun j r' => analyse B q read n j = some r') (B.deps k) rs := by
        have h2 : ∀ j ∈ B.deps k, ∀ e', builtN B q n j = some e' → ∃ new, analyse B q read n j = some (e', new) :=
          fun j hj e' he' => ih (fun i e hi => hr i e (.step hj hi)) he'
        revert h2
        clear hv h
        generalize B.deps k = ds at hes
        intro h2
        induction hes with
        | nil => exact ⟨[], rfl, .nil⟩
        | cons ha hes ih2 =>
          obtain ⟨rs, rfl, hrs⟩ := ih2 fun j hj => h2 j (by simp [hj])
          obtain ⟨new, hn⟩ := h2 _ (by simp) _ ha
          exact ⟨_ :: rs, rfl, .cons hn hrs⟩
      obtain ⟨rs, rfl, hrs⟩ := h1
      refine ⟨rs.flatMap (·.2) ++ [(k, ⟨v, k :: rs.flatMap (·.1.implied)⟩)], (analyse_succ_none hk).mpr ⟨rs, hrs, v, ?_, ?_⟩⟩
      · rw [List.map_map] at hv; exact hv
      · rw [List.flatMap_map]

theorem analyse_self {B : Builds S K V O} {q : S} {read : K → Option (Entry K V)} {n : Nat} {k : K}
    {r : Entry K V × List (K × Entry K V)} (hk : read k = none) (h : analyse B q read n k = some r) :
    (k, r.1) ∈ r.2 := by
  cases n with
  | zero => simp [analyse] at h
  | succ n =>
    obtain ⟨rs, hrs, v, hv, rfl⟩ := (analyse_succ_none hk).mp h
    simp

/-- An implied export target has been analysed, or is implied by an entry read. -/
theorem analyse_implied {B : Builds S K V O} {q : S} {read : K → Option (Entry K V)} {n : Nat} {k : K}
    {r : Entry K V × List (K × Entry K V)} (h : analyse B q read n k = some r) :
    ∀ e, (e = r.1 ∨ ∃ j, (j, e) ∈ r.2) → ∀ i ∈ e.implied, (∃ e', (i, e') ∈ r.2) ∨
      ∃ j e', Needs B k j ∧ read j = some e' ∧ i ∈ e'.implied := by
  induction n generalizing k r with
  | zero => simp [analyse] at h
  | succ n ih =>
    intro e he i hi
    cases hk : read k with
    | some e' =>
      rw [analyse_succ_some hk] at h
      cases Option.some.inj h
      rcases he with rfl | ⟨j, hj⟩
      · exact .inr ⟨k, _, .refl k, hk, hi⟩
      · cases hj
    | none =>
      obtain ⟨rs, hrs, v, hv, rfl⟩ := (analyse_succ_none hk).mp h
      have h1 : ∀ r' ∈ rs, (∃ e', (i, e') ∈ r'.2) ∨ (∃ j e', Needs B k j ∧ read j = some e' ∧ i ∈ e'.implied) →
          (∃ e', (i, e') ∈ rs.flatMap (·.2) ++ [(k, (⟨v, k :: rs.flatMap (·.1.implied)⟩ : Entry K V))]) ∨
          ∃ j e', Needs B k j ∧ read j = some e' ∧ i ∈ e'.implied := by
        rintro r' hr' (⟨e', he'⟩ | h)
        · exact .inl ⟨e', List.mem_append.mpr (.inl (List.mem_flatMap.mpr ⟨r', hr', he'⟩))⟩
        · exact .inr h
      have h2 : ∀ r' ∈ rs, (e = r'.1 ∨ ∃ j, (j, e) ∈ r'.2) →
          (∃ e', (i, e') ∈ r'.2) ∨ ∃ j e', Needs B k j ∧ read j = some e' ∧ i ∈ e'.implied := by
        intro r' hr' he
        obtain ⟨j, hj, ha⟩ := forall₂_mem_right hrs hr'
        rcases ih ha e he i hi with h | ⟨j', e', hn, h⟩
        · exact .inl h
        · exact .inr ⟨j', e', .step hj hn, h⟩
      have h3 : e = ⟨v, k :: rs.flatMap (·.1.implied)⟩ →
          (∃ e', (i, e') ∈ rs.flatMap (·.2) ++ [(k, (⟨v, k :: rs.flatMap (·.1.implied)⟩ : Entry K V))]) ∨
          ∃ j e', Needs B k j ∧ read j = some e' ∧ i ∈ e'.implied := by
        rintro rfl
        rcases List.mem_cons.mp hi with rfl | hi
        · exact .inl ⟨_, List.mem_append.mpr (.inr (List.mem_singleton.mpr rfl))⟩
        · obtain ⟨r', hr', hi⟩ := List.mem_flatMap.mp hi
          obtain ⟨j, hj, ha⟩ := forall₂_mem_right hrs hr'
          rcases ih ha r'.1 (.inl rfl) i hi with h | ⟨j', e', hn, h⟩
          · exact h1 r' hr' (.inl h)
          · exact .inr ⟨j', e', .step hj hn, h⟩
      rcases he with rfl | ⟨j, hj⟩
      · exact h3 rfl
      · rcases List.mem_append.mp hj with hj | hj
        · obtain ⟨r', hr', hj⟩ := List.mem_flatMap.mp hj
          exact h1 r' hr' (h2 r' hr' (.inr ⟨j, hj⟩))
        · cases List.mem_singleton.mp hj
          exact h3 rfl

/-! ## Writing -/

variable [DecidableEq K]

theorem newEntry_mem {new : List (K × Entry K V)} {k : K} {e : Entry K V} (h : newEntry new k = some e) :
    (k, e) ∈ new := by
  simp only [newEntry, Option.map_eq_some_iff] at h
  obtain ⟨⟨k', e'⟩, hf, rfl⟩ := h
  have h1 := List.find?_some hf
  have h2 := List.mem_of_find?_eq_some hf
  simp only [decide_eq_true_eq] at h1
  subst h1
  exact h2

theorem newEntry_isSome {new : List (K × Entry K V)} {k : K} {e : Entry K V} (h : (k, e) ∈ new) :
    ∃ e', newEntry new k = some e' := by
  cases hn : newEntry new k with
  | some e' => exact ⟨e', rfl⟩
  | none =>
    simp only [newEntry, Option.map_eq_none_iff, List.find?_eq_none] at hn
    exact absurd (by simp) (hn _ h)

/-- If the request fits, then everything registered can be stored. -/
theorem storable_all {B : Builds S K V O} {q : S} {n : Nat} {k : K} {w : Endpoint S K V O}
    {r : Entry K V × List (K × Entry K V)} (hc : Closed w) (hf : Fits B w q k)
    (h : analyse B q (w.tc w.own) n k = some r) {j : K} {e : Entry K V} (he : (j, e) ∈ r.2) :
    storable (w.tc q) r.2 e = true := by
  simp only [storable, List.all_eq_true, Bool.or_eq_true, Option.isSome_iff_exists]
  intro i hi
  rcases analyse_implied h e (.inr ⟨j, he⟩) i hi with ⟨e', h'⟩ | ⟨j', e', hn, hr, hi'⟩
  · exact .inl (newEntry_isSome h')
  · rcases hf with rfl | hf
    · exact .inr (hc _ _ _ hr i hi')
    · rw [hf j' hn] at hr
      cases hr

end Verif.Serve
