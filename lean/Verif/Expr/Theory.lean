import Verif.Expr.Param

/-!
# Locality, independence of fuel, termination
-/

set_option linter.unusedSectionVars false

namespace Verif.Expr

variable {N A : Type} (O : Ops N A)

/-! ## Default values -/

theorem not_free_default (f : Fn N A) {d : Val N A} (hd : IsDefault d) (x : Str) :
    ¬ Free O f x d := by
  intro h
  rcases hd with rfl | rfl | rfl | ⟨s, rfl⟩ | ⟨b, rfl⟩
  · cases h
  · cases h with
    | entry hm _ => simp at hm
  · cases h with
    | lookup ht _ => simp [assoc] at ht
    | sub ht _ _ _ => simp [assoc] at ht
  · cases h
  · cases h

theorem eval_default (f : Fn N A) (n : Nat) {d : Val N A} (hd : IsDefault d) :
    ∃ r, r ≠ Res.timeout ∧ ∀ ρ, eval O (n + 1) f d ρ = r := by
  rcases hd with rfl | rfl | rfl | ⟨s, rfl⟩ | ⟨b, rfl⟩
  · exact ⟨.ok .none, by simp, fun _ => rfl⟩
  · exact ⟨.ok (.list []), by simp, fun _ => rfl⟩
  · exact ⟨.fail, by simp, fun _ => rfl⟩
  · exact ⟨.ok (.str s), by simp, fun _ => rfl⟩
  · exact ⟨.ok (.bool b), by simp, fun _ => rfl⟩

theorem eval_default_fuel (f : Fn N A) (n k : Nat) {d : Val N A} (hd : IsDefault d)
    (ρ ρ' : Env N A) : eval O (n + 1) f d ρ = eval O (k + 1) f d ρ' := by
  rcases hd with rfl | rfl | rfl | ⟨s, rfl⟩ | ⟨b, rfl⟩ <;> rfl

/-! ## Locality -/

theorem bindRel_eq : BindRel (fun {_} r r' => r = r') where
  ok _ := rfl
  fail := rfl
  bind := by
    intro α β r r' k k' h hk
    subst h
    have : k = k' := funext hk
    rw [this]

theorem eval_local :
    ∀ (n : Nat) (f : Fn N A) (e : Val N A) (ρ ρ' : Env N A),
      (∀ x, Free O f x e → ρ x = ρ' x) → eval O n f e ρ = eval O n f e ρ'
  | 0, _, _, _, _, _ => rfl
  | n + 1, f, e, ρ, ρ', h => by
    rw [eval_succ, eval_succ]
    refine rel_step bindRel_eq O f e ρ ρ' ?_ ?_ ?_ ?_ ?_
    · intro l hl x hx
      subst hl
      exact eval_local n f x ρ ρ' (fun y hy => h y (.entry hx hy))
    · intro m ty hm ht bs e' he σ σ' h1 h2
      subst hm
      refine eval_local n f e' σ σ' (fun y hy => ?_)
      by_cases hb : y ∈ bs
      · exact h2 y hb
      · rw [(h1 y hb).1, (h1 y hb).2]
        exact h y (.sub ht he hb hy)
    · intro m _ d hd σ σ'
      exact eval_local n f d σ σ' (fun y hy => absurd hy (not_free_default O f hd y))
    · intro m ty hm ht x hx
      subst hm
      exact h x (.lookup ht hx)
    · intro m name g _ _ σ
      rfl

/-! ## More fuel does not change the outcome -/

theorem bindRel_mono : BindRel (fun {_} r r' => r ≠ .timeout → r = r') where
  ok _ := fun _ => rfl
  fail := fun _ => rfl
  bind := by
    intro α β r r' k k' h hk hne
    cases r with
    | ok a =>
      have := h (by simp)
      subst this
      exact hk a hne
    | fail =>
      have := h (by simp)
      subst this
      rfl
    | timeout => exact absurd rfl hne

theorem same_env {σ σ' ρ : Env N A} {bs : List Str}
    (h1 : ∀ x, x ∉ bs → σ x = ρ x ∧ σ' x = ρ x) (h2 : ∀ x ∈ bs, σ x = σ' x) : σ = σ' := by
  funext y
  by_cases hb : y ∈ bs
  · exact h2 y hb
  · rw [(h1 y hb).1, (h1 y hb).2]

theorem eval_mono : ∀ (n : Nat) (f : Fn N A) (e : Val N A) (ρ : Env N A),
    eval O n f e ρ ≠ .timeout → eval O n f e ρ = eval O (n + 1) f e ρ
  | 0, _, _, _, h => absurd rfl h
  | n + 1, f, e, ρ, h => by
    rw [eval_succ] at h
    rw [eval_succ, eval_succ]
    refine rel_step bindRel_mono O f e ρ ρ ?_ ?_ ?_ ?_ ?_ h
    · intro l _ x _
      exact eval_mono n f x ρ
    · intro m ty _ _ bs e' _ σ σ' h1 h2
      rw [same_env h1 h2]
      exact eval_mono n f e' σ'
    · intro m _ d hd σ σ' hne
      cases n with
      | zero => exact absurd rfl hne
      | succ n => exact eval_default_fuel O f n (n + 1) hd σ σ'
    · intro m ty _ _ x _
      rfl
    · intro m name g _ _ σ
      exact eval_mono n g g.expr σ

theorem eval_mono_le {n k : Nat} (h : n ≤ k) (f : Fn N A) (e : Val N A) (ρ : Env N A)
    (hne : eval O n f e ρ ≠ .timeout) : eval O k f e ρ = eval O n f e ρ := by
  induction h with
  | refl => rfl
  | step _ ih =>
    rw [← ih, ← eval_mono O]
    rw [ih]
    exact hne

/-! ## Termination -/

theorem bindRel_term : BindRel (fun {_} r _ => r ≠ .timeout) where
  ok _ := by simp
  fail := by simp
  bind := by
    intro α β r r' k k' h hk
    cases r with
    | ok a => exact hk a
    | fail => simp [Res.bind]
    | timeout => exact absurd rfl h

theorem sizeOf_assoc {k : Str} {m : Items N A} {v : Val N A} (h : assoc k m = some v) :
    sizeOf v < sizeOf m := by
  have := List.sizeOf_lt_of_mem (assoc_some_mem h)
  simp at this
  omega

theorem sizeOf_field {k : String} {m : Items N A} {bs bs' : List Str} {e : Val N A}
    (h : (bs', e) ∈ field k bs m) : sizeOf e < sizeOf m := by
  unfold field at h
  simp only [List.mem_map, Option.mem_toList, Prod.mk.injEq] at h
  obtain ⟨v, hv, _, rfl⟩ := h
  exact sizeOf_assoc hv

theorem sizeOf_plain {ks : List String} {m : Items N A} {bs : List Str} {e : Val N A}
    (h : (bs, e) ∈ plain ks m) : sizeOf e < sizeOf m := by
  unfold plain at h
  obtain ⟨k, _, hk⟩ := List.mem_flatMap.mp h
  exact sizeOf_field hk

theorem sizeOf_entriesAt {k : String} {m : Items N A} {e : Val N A} (h : e ∈ entriesAt k m) :
    sizeOf e < sizeOf m := by
  unfold entriesAt at h
  cases ha : assoc k.toList m with
  | none => simp [ha] at h
  | some c =>
    have := sizeOf_assoc ha
    simp only [ha, Option.bind_some] at h
    cases hl : c.list? with
    | none => simp [hl] at h
    | some l =>
      rw [hl, Option.getD_some] at h
      have h2 := List.sizeOf_lt_of_mem h
      rw [Val.eq_of_list? hl] at this
      simp at this
      omega

theorem sizeOf_pair {p : Val N A} {ab : Val N A × Val N A} (h : pair? p = some ab) :
    sizeOf ab.1 < sizeOf p ∧ sizeOf ab.2 < sizeOf p := by
  unfold pair? at h
  split at h
  · cases h
    simp
    omega
  · cases h

theorem sizeOf_pairsAt {k : String} {m : Items N A} {bs : List Str} {e : Val N A}
    (h : (bs, e) ∈ pairsAt k m) : sizeOf e < sizeOf m := by
  unfold pairsAt at h
  simp only [List.mem_flatMap, Option.mem_toList, List.mem_cons, Prod.mk.injEq, List.not_mem_nil,
    or_false] at h
  obtain ⟨p, hp, ab, hab, h⟩ := h
  have h1 := sizeOf_entriesAt hp
  have h2 := sizeOf_pair hab
  rcases h with ⟨_, rfl⟩ | ⟨_, rfl⟩ <;> omega

theorem sizeOf_letScope {m : Items N A} {n : Nat} (hm : sizeOf m ≤ n) :
    ∀ (l : List (Val N A)) (bs : List Str), (∀ b ∈ l, sizeOf b < n) → ∀ bs' e,
      (bs', e) ∈ letScope m l bs → sizeOf e < n
  | [], bs, _, bs', e, h => by
    unfold letScope at h
    have := sizeOf_field h
    omega
  | b :: t, bs, hl, bs', e, h => by
    unfold letScope at h
    simp only [List.mem_flatMap, Option.mem_toList, List.mem_cons, Prod.mk.injEq] at h
    obtain ⟨ab, hab, h⟩ := h
    rcases h with ⟨_, rfl⟩ | h
    · have := (sizeOf_pair hab).2
      have := hl b (by simp)
      omega
    · exact sizeOf_letScope hm t _ (fun c hc => hl c (by simp [hc])) bs' e h

theorem sizeOf_unquoted (n : Nat) :
    (∀ v : Val N A, sizeOf v ≤ n → ∀ e ∈ unquoted v, sizeOf e < n) ∧
    (∀ l : List (Val N A), sizeOf l ≤ n → ∀ e ∈ unquotedList l, sizeOf e < n) ∧
    (∀ m : List (Str × Val N A), sizeOf m ≤ n → ∀ e ∈ unquotedItems m, sizeOf e < n) := by
  induction n with
  | zero =>
    refine ⟨fun v hv => ?_, fun l hl => ?_, fun m hm => ?_⟩
    · cases v <;> simp at hv
    · cases l <;> simp at hl
    · cases m <;> simp at hm
  | succ n ih =>
    obtain ⟨ihv, ihl, ihm⟩ := ih
    refine ⟨fun v hv e he => ?_, fun l hl e he => ?_, fun m hm e he => ?_⟩
    · cases v with
      | list l =>
        simp only [unquoted] at he
        simp at hv
        have := ihl l (by omega) e he
        omega
      | map m =>
        simp only [unquoted] at he
        simp at hv
        split at he
        · have := sizeOf_assoc (Option.mem_toList.mp he)
          omega
        · have := ihm m (by omega) e he
          omega
      | _ => simp [unquoted] at he
    · cases l with
      | nil => simp [unquotedList] at he
      | cons v t =>
        simp at hl
        simp only [unquotedList, List.mem_append] at he
        rcases he with he | he
        · have := ihv v (by omega) e he
          omega
        · have := ihl t (by omega) e he
          omega
    · cases m with
      | nil => simp [unquotedItems] at he
      | cons kv t =>
        obtain ⟨k, v⟩ := kv
        simp at hm
        simp only [unquotedItems, List.mem_append] at he
        rcases he with he | he
        · have := ihv v (by omega) e he
          omega
        · have := ihm t (by omega) e he
          omega

theorem sizeOf_logicalArgs {m : Items N A} {bs : List Str} {e : Val N A}
    (h : (bs, e) ∈ logicalArgs m) : sizeOf e < sizeOf m := by
  unfold logicalArgs at h
  split at h
  · simp at h
  · rename_i c hc
    have h1 := sizeOf_assoc hc
    split at h
    · rename_i l hl
      simp only [List.mem_map, Prod.mk.injEq] at h
      obtain ⟨x, hx, _, rfl⟩ := h
      have h2 := List.sizeOf_lt_of_mem hx
      rw [Val.eq_of_list? hl] at h1
      simp at h1
      omega
    · simp only [List.mem_singleton, Prod.mk.injEq] at h
      rw [h.2]
      exact h1

/-- Subterms are smaller, except for the default of `foreach_map`. -/
theorem sizeOf_scopes {ty : Str} {s : Items N A → List (List Str × Val N A)}
    (h : assoc ty scopes = some s) {m : Items N A} {bs : List Str} {e : Val N A}
    (he : (bs, e) ∈ s m) : sizeOf e < sizeOf m ∨ e = emptyMapLit := by
  have hmem := assoc_some_mem h
  clear h
  simp only [scopes, List.mem_cons, Prod.mk.injEq, List.not_mem_nil, or_false] at hmem
  rcases hmem with ⟨-, rfl⟩ | ⟨-, rfl⟩ | ⟨-, rfl⟩ | ⟨-, rfl⟩ | ⟨-, rfl⟩ | ⟨-, rfl⟩
    | ⟨-, rfl⟩ | ⟨-, rfl⟩ | ⟨-, rfl⟩ | ⟨-, rfl⟩ | ⟨-, rfl⟩ | ⟨-, rfl⟩ | ⟨-, rfl⟩
    | ⟨-, rfl⟩ | ⟨-, rfl⟩ | ⟨-, rfl⟩ | ⟨-, rfl⟩ | ⟨-, rfl⟩ | ⟨-, rfl⟩ | ⟨-, rfl⟩
    | ⟨-, rfl⟩ | ⟨-, rfl⟩ | ⟨-, rfl⟩ | ⟨-, rfl⟩ | ⟨-, rfl⟩ | ⟨-, rfl⟩ | ⟨-, rfl⟩
    | ⟨-, rfl⟩ | ⟨-, rfl⟩ | ⟨-, rfl⟩ | ⟨-, rfl⟩ | ⟨-, rfl⟩ | ⟨-, rfl⟩ | ⟨-, rfl⟩
    | ⟨-, rfl⟩ | ⟨-, rfl⟩ | ⟨-, rfl⟩ | ⟨-, rfl⟩ | ⟨-, rfl⟩ | ⟨-, rfl⟩ | ⟨-, rfl⟩
    | ⟨-, rfl⟩ | ⟨-, rfl⟩ | ⟨-, rfl⟩ | ⟨-, rfl⟩ | ⟨-, rfl⟩ | ⟨-, rfl⟩ | ⟨-, rfl⟩
    | ⟨-, rfl⟩ | ⟨-, rfl⟩ | ⟨-, rfl⟩
  all_goals first
    | exact Or.inl (sizeOf_plain he)
    | exact Or.inl (sizeOf_logicalArgs he)
    | skip
  · left
    simp only [List.mem_flatMap, Option.mem_toList, List.mem_map, Prod.mk.injEq] at he
    obtain ⟨c, hc, x, hx, _, rfl⟩ := he
    have h1 := sizeOf_assoc hc
    have h2 := (sizeOf_unquoted (sizeOf c)).1 c (Nat.le_refl _) x hx
    omega
  · left
    rcases List.mem_append.mp he with he | he
    · exact sizeOf_pairsAt he
    · exact sizeOf_plain he
  · left
    rcases List.mem_append.mp he with he | he
    · simp only [List.mem_map, Prod.mk.injEq] at he
      obtain ⟨kv, hkv, _, rfl⟩ := he
      cases ha : assoc "case".toList m with
      | none => simp only [ha] at hkv; simp at hkv
      | some c =>
        have h1 := sizeOf_assoc ha
        simp only [ha, Option.bind_some] at hkv
        cases hl : c.map? with
        | none => simp [hl] at hkv
        | some l =>
          rw [hl, Option.getD_some] at hkv
          have h2 := List.sizeOf_lt_of_mem hkv
          rw [Val.eq_of_map? hl] at h1
          obtain ⟨k, v⟩ := kv
          simp at h1 h2 ⊢
          omega
    · exact sizeOf_plain he
  · left
    rcases List.mem_append.mp he with he | he
    · exact sizeOf_pairsAt he
    · exact sizeOf_plain he
  · left
    rcases List.mem_append.mp he with he | he
    · exact sizeOf_plain he
    · exact sizeOf_field he
  · left
    rcases List.mem_append.mp he with he | he
    · exact sizeOf_plain he
    · exact sizeOf_field he
  · rcases List.mem_cons.mp he with he | he
    · obtain ⟨_, rfl⟩ := Prod.mk.inj he
      unfold get
      cases ha : assoc "range".toList m with
      | none => right; rfl
      | some c => left; exact sizeOf_assoc ha
    · left; exact sizeOf_field he
  · left
    rcases List.mem_append.mp he with he | he
    · exact sizeOf_plain he
    · exact sizeOf_field he
  · left
    rcases List.mem_append.mp he with he | he
    · exact sizeOf_plain he
    · exact sizeOf_field he
  · left
    exact sizeOf_letScope (Nat.le_refl _) _ _ (fun b hb => sizeOf_entriesAt hb) bs e he

theorem sizeOf_subterms {ty : Str} {m : Items N A} {bs : List Str} {e : Val N A}
    (he : (bs, e) ∈ subterms O ty m) : sizeOf e < sizeOf m ∨ e = emptyMapLit := by
  unfold subterms at he
  split at he
  · simp at he
  · split at he
    · simp only [List.mem_flatMap, List.mem_map, Option.mem_toList, Prod.mk.injEq] at he
      obtain ⟨k, _, v, hv, _, rfl⟩ := he
      exact Or.inl (sizeOf_assoc hv)
    · split at he
      · rename_i s hs
        exact sizeOf_scopes hs he
      · simp at he

theorem eval_emptyMapLit (f : Fn N A) (n : Nat) (ρ : Env N A) :
    eval O (n + 2) f emptyMapLit ρ ≠ .timeout := by
  have e : eval O (n + 2) f emptyMapLit ρ
      = match O.provided "empty_map".toList with
        | some r => r.construct (eval O (n + 1) f) [("type".toList, lit "empty_map")] ρ
        | none => .ok (.map []) := rfl
  rw [e]
  cases O.provided "empty_map".toList with
  | none => simp
  | some r =>
    simp only
    refine good_regular bindRel_term r (eval O (n + 1) f) (eval O (n + 1) f) _ ρ ρ ?_ ?_ ?_
    · intro bs e he σ σ' _ _
      simp only [List.mem_flatMap, List.mem_map, Option.mem_toList, Prod.mk.injEq] at he
      obtain ⟨k, _, v, hv, _, rfl⟩ := he
      have hm := assoc_some_mem hv
      simp only [List.mem_singleton, Prod.mk.injEq] at hm
      rw [hm.2]
      simp [lit, eval]
    · intro d hd σ σ'
      obtain ⟨r, hr, h⟩ := eval_default O f n hd
      rw [h]
      exact hr
    · intro x hx
      simp at hx

theorem eval_terminates_aux (f : Fn N A) (c : Nat)
    (hc : ∀ name g, findFn name f.imports = some g → ∀ k, c ≤ k → ∀ σ,
      eval O k g g.expr σ ≠ .timeout) :
    ∀ (k : Nat) (e : Val N A), sizeOf e + c + 2 ≤ k → ∀ ρ, eval O k f e ρ ≠ .timeout
  | 0, e, hk, ρ => by omega
  | k + 1, e, hk, ρ => by
    rw [eval_succ]
    refine rel_step bindRel_term O f (ev := eval O k f) (ev' := eval O k f)
      (call := fun g σ => eval O k g g.expr σ) (call' := fun g σ => eval O k g g.expr σ)
      e ρ ρ ?_ ?_ ?_ ?_ ?_
    · intro l hl x hx
      subst hl
      have := List.sizeOf_lt_of_mem hx
      simp at hk
      exact eval_terminates_aux f c hc k x (by omega) ρ
    · intro m ty hm ht bs e' he σ σ' h1 h2
      subst hm
      simp at hk
      rcases sizeOf_subterms O he with h | rfl
      · exact eval_terminates_aux f c hc k e' (by omega) σ
      · obtain ⟨j, rfl⟩ : ∃ j, k = j + 2 := ⟨k - 2, by omega⟩
        exact eval_emptyMapLit O f j σ
    · intro m hm d hd σ σ'
      subst hm
      simp at hk
      obtain ⟨j, rfl⟩ : ∃ j, k = j + 1 := ⟨k - 1, by omega⟩
      obtain ⟨r, hr, h⟩ := eval_default O f j hd
      rw [h]
      exact hr
    · intro m ty _ _ x _
      rfl
    · intro m name g hm hf σ
      exact hc name g hf k (by omega) σ

theorem findFn_mem {name : Str} {g : Fn N A} : ∀ {l : List (Str × Fn N A)},
    findFn name l = some g → ∃ n, (n, g) ∈ l
  | [], h => by simp [findFn] at h
  | (n, f) :: t, h => by
    unfold findFn at h
    split at h
    · cases h
      exact ⟨n, by simp⟩
    · obtain ⟨n', hn⟩ := findFn_mem h
      exact ⟨n', by simp [hn]⟩

theorem exists_bound {α : Type} {P : α → Nat → Prop} : ∀ (l : List α),
    (∀ a ∈ l, ∃ n, ∀ k, n ≤ k → P a k) → ∃ n, ∀ a ∈ l, ∀ k, n ≤ k → P a k
  | [], _ => ⟨0, by simp⟩
  | a :: t, h => by
    obtain ⟨n, hn⟩ := h a (by simp)
    obtain ⟨n', hn'⟩ := exists_bound t (fun b hb => h b (by simp [hb]))
    refine ⟨max n n', fun b hb k hk => ?_⟩
    rcases List.mem_cons.mp hb with rfl | hb
    · exact hn k (by omega)
    · exact hn' b hb k (by omega)

theorem eval_terminates : ∀ (s : Nat) (f : Fn N A), sizeOf f ≤ s → ∀ e : Val N A,
    ∃ n, ∀ k, n ≤ k → ∀ ρ, eval O k f e ρ ≠ .timeout
  | 0, f, hs, e => by cases f; simp at hs
  | s + 1, .mk vars imports expr, hs, e => by
    have h : ∃ n, ∀ p ∈ imports, ∀ k, n ≤ k → ∀ ρ, eval O k p.2 p.2.expr ρ ≠ .timeout := by
      refine exists_bound (P := fun p k => ∀ ρ, eval O k p.2 p.2.expr ρ ≠ .timeout) imports
        (fun p hp => ?_)
      refine eval_terminates s p.2 ?_ p.2.expr
      have h1 := List.sizeOf_lt_of_mem hp
      obtain ⟨a, b⟩ := p
      simp at h1 hs ⊢
      omega
    obtain ⟨c, hc⟩ := h
    refine ⟨sizeOf e + c + 2, fun k hk => eval_terminates_aux O _ c (fun name g hg k hk σ => ?_) k e hk⟩
    obtain ⟨n, hn⟩ := findFn_mem hg
    exact hc (n, g) hn k hk σ

end Verif.Expr
