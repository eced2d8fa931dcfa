import Verif.MrConfig.Spec
import Mathlib.Data.List.Perm.Subperm

/-!
# Aliases: `ResolveRepo` and `GetTargetRepoIfPrecomputed`
-/

namespace Verif.MrConfig

open Verif

section
variable {N : Type} {repos : List (Str × Json N)}

theorem field_eq_of_ne {k : Str} {l : List (Str × Json N)} {v : Json N} (hv : v ≠ .null) :
    field k l = v ↔ assoc k l = some v := by
  unfold field
  cases assoc k l with
  | none => simp [hv.symm]
  | some w => simp

theorem field_str {k s : Str} {l : List (Str × Json N)} :
    field k l = .str s ↔ assoc k l = some (.str s) := field_eq_of_ne (fun e => nomatch e)

theorem has_iff {a k : Str} {v : Json N} (hv : v ≠ .null) :
    Has repos a k v ↔ ∃ l, assoc a repos = some (.obj l) ∧ field k l = v := by
  simp only [Has, field_eq_of_ne hv, hv, ne_eq, not_false_eq_true, true_and]

theorem alias_det {a b c : Str} (h : Alias repos a b) (h' : Alias repos a c) : b = c := by
  obtain ⟨_, l, h1, h2⟩ := h
  obtain ⟨_, l', h1', h2'⟩ := h'
  rw [h1] at h1'; cases h1'
  rw [h2] at h2'; cases h2'
  rfl

theorem alias_mem {a b : Str} (h : Alias repos a b) : a ∈ repos.map Prod.fst := by
  obtain ⟨_, l, h1, _⟩ := h
  exact List.mem_map_of_mem (f := Prod.fst) (assoc_some_mem h1)

/-- The names passed when following aliases from a name. -/
inductive Chain (repos : List (Str × Json N)) : Str → List Str → Prop
  | stop {a : Str} (h : ∀ b, ¬ Alias repos a b) : Chain repos a [a]
  | step {a b : Str} {l : List Str} (h : Alias repos a b) (hl : Chain repos b l) : Chain repos a (a :: l)

theorem Chain.det {a : Str} {l l' : List Str} (h : Chain repos a l) (h' : Chain repos a l') : l = l' := by
  induction h generalizing l' with
  | stop hn =>
    cases h' with
    | stop _ => rfl
    | step h _ => exact absurd h (hn _)
  | step h hl ih =>
    cases h' with
    | stop hn => exact absurd h (hn _)
    | step h2 hl2 =>
      rw [alias_det h2 h] at hl2
      rw [ih hl2]

theorem Chain.suffix {a b : Str} {l : List Str} (h : Chain repos a l) (hb : b ∈ l) :
    ∃ l', Chain repos b l' ∧ l'.length ≤ l.length := by
  induction h with
  | stop hn =>
    simp only [List.mem_singleton] at hb
    subst hb
    exact ⟨_, .stop hn, Nat.le_refl _⟩
  | step h hl ih =>
    rcases List.mem_cons.mp hb with rfl | hb
    · exact ⟨_, .step h hl, Nat.le_refl _⟩
    · obtain ⟨l', h1, h2⟩ := ih hb
      exact ⟨l', h1, Nat.le_succ_of_le h2⟩

theorem Chain.nodup {a : Str} {l : List Str} (h : Chain repos a l) : l.Nodup := by
  induction h with
  | stop hn => exact List.nodup_cons.mpr ⟨List.not_mem_nil, List.nodup_nil⟩
  | @step a b l h hl ih =>
    refine List.nodup_cons.mpr ⟨fun hm => ?_, ih⟩
    obtain ⟨l', h1, h2⟩ := hl.suffix hm
    have := h1.det (.step h hl)
    rw [this] at h2
    simp only [List.length_cons] at h2
    omega

theorem Chain.mem_keys {a : Str} {l : List Str} (h : Chain repos a l) :
    ∃ pre z, l = pre ++ [z] ∧ ∀ x ∈ pre, x ∈ repos.map Prod.fst := by
  induction h with
  | @stop a hn => exact ⟨[], a, rfl, fun x hx => absurd hx List.not_mem_nil⟩
  | @step a b l h hl ih =>
    obtain ⟨pre, z, rfl, hp⟩ := ih
    refine ⟨a :: pre, z, rfl, fun x hx => ?_⟩
    rcases List.mem_cons.mp hx with rfl | hx
    · exact alias_mem h
    · exact hp x hx

theorem Chain.length_le {a : Str} {l : List Str} (h : Chain repos a l) : l.length ≤ repos.length + 1 := by
  obtain ⟨pre, z, rfl, hp⟩ := h.mem_keys
  have hn := h.nodup
  have hs : pre ⊆ repos.map Prod.fst := hp
  have := (List.subperm_of_subset (List.nodup_append.mp hn).1 hs).length_le
  simp only [List.length_map] at this
  simp only [List.length_append, List.length_cons, List.length_nil]
  omega

theorem Chain.grounded {a : Str} {l : List Str} (h : Chain repos a l) : Grounded repos a := by
  induction h with
  | stop hn => exact .intro _ fun b hb => absurd hb (hn b)
  | step h hl ih => exact .intro _ fun b hb => by rw [alias_det hb h]; exact ih

theorem Grounded.chain {a : Str} (h : Grounded repos a) : ∃ l, Chain repos a l := by
  induction h with
  | intro a h ih =>
    by_cases hb : ∃ b, Alias repos a b
    · obtain ⟨b, hb⟩ := hb
      obtain ⟨l, hl⟩ := ih b hb
      exact ⟨_, .step hb hl⟩
    · exact ⟨[a], .stop fun b hb' => hb ⟨b, hb'⟩⟩

theorem grounded_of_alias {a b : Str} (h : Alias repos a b) : Grounded repos a ↔ Grounded repos b := by
  constructor
  · intro ha; cases ha with | intro _ ha => exact ha b h
  · intro hb; exact .intro a fun c hc => by rw [alias_det hc h]; exact hb

theorem Describes.grounded {a : Str} {d : Json N} (h : Describes repos a d) : Grounded repos a := by
  induction h with
  | here h hd hs =>
    refine .intro _ fun b hb => ?_
    obtain ⟨_, l, h1, h2⟩ := hb
    rw [h] at h1; cases h1
    rw [hd] at h2; cases h2
    exact absurd rfl (hs b)
  | via h _ ih => exact (grounded_of_alias h).mpr ih

theorem Describes.det {a : Str} {d e : Json N} (h : Describes repos a d) (h' : Describes repos a e) :
    d = e := by
  induction h with
  | here h hd hs =>
    cases h' with
    | here h2 hd2 hs2 => rw [h] at h2; cases h2; rw [hd] at hd2; cases hd2; rfl
    | via h2 _ =>
      obtain ⟨_, l, h1, h3⟩ := h2
      rw [h] at h1; cases h1
      rw [hd] at h3; cases h3
      exact absurd rfl (hs _)
  | via h _ ih =>
    cases h' with
    | here h2 hd2 hs2 =>
      obtain ⟨_, l, h1, h3⟩ := h
      rw [h2] at h1; cases h1
      rw [hd2] at h3; cases h3
      exact absurd rfl (hs2 _)
    | via h2 hb => rw [alias_det h2 h] at hb; exact ih hb

/-! ## `ResolveRepo` -/

theorem resolveFrom_other (fuel : Nat) (seen : List Str) {d : Json N} (h : ∀ s, d ≠ .str s) :
    resolveFrom repos fuel seen d = some d := by
  cases d with
  | str s => exact absurd rfl (h s)
  | _ => rw [resolveFrom]; try (intro s hs; cases hs)

theorem resolveFrom_sound {fuel : Nat} {seen : List Str} {d e : Json N}
    (h : resolveFrom repos fuel seen d = some e) :
    (d = e ∧ ∀ s, d ≠ .str s) ∨ ∃ s, d = .str s ∧ Describes repos s e := by
  induction fuel generalizing seen d with
  | zero =>
    cases d with
    | str s =>
      rw [resolveFrom] at h
      split at h <;> cases h
    | _ => rw [resolveFrom_other 0 seen (fun s hs => by cases hs)] at h; cases h
           exact Or.inl ⟨rfl, fun s hs => by cases hs⟩
  | succ fuel ih =>
    cases d with
    | str s =>
      rw [resolveFrom] at h
      split at h
      · cases h
      · split at h
        · rename_i l hl
          split at h
          · rename_i d' hd'
            refine Or.inr ⟨s, rfl, ?_⟩
            rcases ih h with ⟨rfl, hs⟩ | ⟨s', rfl, hs'⟩
            · exact .here hl hd' hs
            · exact .via ⟨(fun e => nomatch e), l, hl, hd'⟩ hs'
          · cases h
        · cases h
    | _ => rw [resolveFrom_other _ seen (fun s hs => by cases hs)] at h; cases h
           exact Or.inl ⟨rfl, fun s hs => by cases hs⟩

theorem resolveFrom_complete {a : Str} {l : List Str} (hc : Chain repos a l) {e : Json N}
    (h : Describes repos a e) (fuel : Nat) (seen : List Str) (hf : l.length ≤ fuel)
    (hs : ∀ x ∈ seen, x ∉ l) : resolveFrom repos fuel seen (.str a) = some e := by
  induction hc generalizing fuel seen with
  | @stop a hn =>
    have hna : a ∉ seen := fun hm => hs a hm List.mem_cons_self
    cases h with
    | here h1 h2 h3 =>
      cases fuel with
      | zero => simp only [List.length_cons, List.length_nil] at hf; omega
      | succ fuel =>
        rw [resolveFrom, if_neg hna]
        simp only [h1, h2]
        exact resolveFrom_other _ _ h3
    | via h1 _ => exact absurd h1 (hn _)
  | @step a b l h1 hl ih =>
    have hna : a ∉ seen := fun hm => hs a hm List.mem_cons_self
    have hnd := (Chain.step h1 hl).nodup
    cases fuel with
    | zero => simp only [List.length_cons] at hf; omega
    | succ fuel =>
      simp only [List.length_cons] at hf
      have hb : Describes repos b e := by
        cases h with
        | here h3 h4 h5 =>
          obtain ⟨_, l', h6, h7⟩ := h1
          rw [h3] at h6; cases h6
          rw [h4] at h7; cases h7
          exact absurd rfl (h5 _)
        | via h3 h4 => rw [alias_det h3 h1] at h4; exact h4
      obtain ⟨_, l', h6, h7⟩ := h1
      rw [resolveFrom, if_neg hna]
      simp only [h6, h7]
      refine ih hb fuel (a :: seen) (by omega) fun x hx => ?_
      rcases List.mem_cons.mp hx with rfl | hx
      · exact (List.nodup_cons.mp hnd).1
      · exact fun hm => hs x hx (List.mem_cons_of_mem _ hm)

/-- `ResolveRepo` finds the description exactly when there is one. -/
theorem resolve_str {a : Str} {e : Json N} :
    resolve repos (.str a) = some e ↔ Describes repos a e := by
  constructor
  · intro h
    rcases resolveFrom_sound h with ⟨_, hs⟩ | ⟨s, hs, h⟩
    · exact absurd rfl (hs a)
    · cases hs; exact h
  · intro h
    obtain ⟨l, hl⟩ := h.grounded.chain
    exact resolveFrom_complete hl h _ [] hl.length_le (fun x hx => absurd hx List.not_mem_nil)

theorem resolve_other {d : Json N} (h : ∀ s, d ≠ .str s) : resolve repos d = some d :=
  resolveFrom_other _ _ h

/-- The description of a repository by its own field. -/
theorem describes_iff {a : Str} {e : Json N} :
    Describes repos a e ↔ ∃ l d, assoc a repos = some (.obj l) ∧
      assoc "repository".toList l = some d ∧ resolve repos d = some e := by
  constructor
  · intro h
    cases h with
    | here h hd hs => exact ⟨_, _, h, hd, resolve_other hs⟩
    | via h hb =>
      obtain ⟨_, l, h1, h2⟩ := h
      exact ⟨l, _, h1, h2, resolve_str.mpr hb⟩
  · rintro ⟨l, d, h1, h2, h3⟩
    rcases resolveFrom_sound h3 with ⟨rfl, hs⟩ | ⟨s, rfl, hs⟩
    · exact .here h1 h2 hs
    · exact .via ⟨(fun e => nomatch e), l, h1, h2⟩ hs

/-! ## `ParsePrecomputedRoot` -/

theorem parseAbsent_iff {r : List (Str × Json N)} {b : Bool} :
    parseAbsent r = some b ↔ AbsentIs r b := by
  unfold parseAbsent AbsentIs
  split
  · rename_i h
    simp only [h, reduceCtorEq, false_and, exists_false, or_false, true_and, Option.some.injEq]
    exact ⟨fun e => e.symm, fun e => e.symm⟩
  · rename_i p h
    simp only [h, reduceCtorEq, false_and, false_or, Json.obj.injEq, exists_eq_left']
    split
    · rename_i h2
      simp only [h2, reduceCtorEq, or_false, true_and, Option.some.injEq]
      exact ⟨fun e => e.symm, fun e => e.symm⟩
    · rename_i b' h2
      simp only [h2, reduceCtorEq, false_and, false_or, Json.bool.injEq, Option.some.injEq]
    · rename_i h2 h3
      constructor
      · intro e; cases e
      · rintro (⟨e, _⟩ | e)
        · exact absurd e h2
        · exact absurd e (h3 _)
  · rename_i h1 h2
    constructor
    · intro e; cases e
    · rintro (⟨e, _⟩ | ⟨p, e, _⟩)
      · exact absurd e h1
      · exact absurd e (h2 _)

theorem parseConfig_iff {r : List (Str × Json N)} {c : Json N} :
    parseConfig r = some c ↔ ConfigIs r c := by
  unfold parseConfig ConfigIs
  split
  · rename_i h
    simp only [h, reduceCtorEq, false_and, exists_false, or_false, true_and, Option.some.injEq]
    exact ⟨fun e => e.symm, fun e => e.symm⟩
  · rename_i p h
    simp only [h, reduceCtorEq, false_and, false_or, Json.obj.injEq, exists_eq_left', Option.some.injEq]
    exact ⟨fun e => e.symm, fun e => e.symm⟩
  · rename_i h1 h2
    constructor
    · intro e; cases e
    · rintro (⟨e, _⟩ | ⟨p, e, _⟩)
      · exact absurd e h1
      · exact absurd e (h2 _)

/-- What is read for a computed root: the module stands in the place of the target. -/
theorem parsePre_computed {d : Json N} {repo m t : Str} {c : Json N} {a : Bool} :
    parsePre d = .root (.computed repo m t c a) ↔ t = m ∧ ∃ t', IsComputed d repo m t' c a := by
  constructor
  · intro h
    unfold parsePre at h
    split at h
    · rename_i r
      split at h
      · rename_i ty hty
        split at h
        · rename_i hc
          subst hc
          unfold parseComputed at h
          split at h
          · rename_i repo' hrepo
            split at h
            · rename_i m' t' ht
              split at h
              · rename_i c' a' hc ha
                simp only [Parsed.root.injEq, Pre.computed.injEq] at h
                obtain ⟨rfl, rfl, rfl, rfl, rfl⟩ := h
                exact ⟨rfl, t', r, rfl, hty, hrepo, ht, parseConfig_iff.mp hc, parseAbsent_iff.mp ha⟩
              · cases h
            · cases h
          · cases h
        · split at h
          · unfold parseTree at h
            split at h
            · cases h
            · split at h
              · cases h
              · split at h
                · simp only [Parsed.root.injEq, reduceCtorEq] at h
                · cases h
          · cases h
      · cases h
    · cases h
  · rintro ⟨rfl, t', r, rfl, h1, h2, h3, h4, h5⟩
    simp only [parsePre, h1, if_true, parseComputed, h2, h3, parseConfig_iff.mpr h4, parseAbsent_iff.mpr h5]

theorem parsePre_tree {d : Json N} {repo : Str} {a : Bool} :
    parsePre d = .root (.tree repo a) ↔ IsTree d repo a := by
  constructor
  · intro h
    unfold parsePre at h
    split at h
    · rename_i r
      split at h
      · rename_i ty hty
        split at h
        · unfold parseComputed at h
          split at h
          · split at h
            · split at h
              · simp only [Parsed.root.injEq, reduceCtorEq] at h
              · cases h
            · cases h
          · cases h
        · split at h
          · rename_i hc
            subst hc
            unfold parseTree at h
            split at h
            · cases h
            · split at h
              · cases h
              · rename_i ab hab
                split at h
                · rename_i repo' hrepo
                  simp only [Parsed.root.injEq, Pre.tree.injEq] at h
                  obtain ⟨rfl, rfl⟩ := h
                  exact ⟨r, rfl, hty, hrepo, parseAbsent_iff.mp hab⟩
                · cases h
          · cases h
      · cases h
    · cases h
  · rintro ⟨r, rfl, h1, h2, h5⟩
    have hne : ("tree structure".toList : Str) ≠ "computed".toList := by decide
    simp only [parsePre, h1, if_neg hne, if_true, parseTree, h2, parseAbsent_iff.mpr h5]

/-- The repository referred to. -/
theorem parsePre_refers {d : Json N} {b : Str} :
    (∃ p, parsePre d = .root p ∧ p.repo = b) ↔ RefersTo d b := by
  constructor
  · rintro ⟨p, hp, rfl⟩
    cases p with
    | computed r m t c a => exact Or.inl ⟨m, _, c, a, (parsePre_computed.mp hp).2.choose_spec⟩
    | tree r a => exact Or.inr ⟨a, parsePre_tree.mp hp⟩
  · rintro (⟨m, t, c, a, h⟩ | ⟨a, h⟩)
    · exact ⟨.computed b m m c a, parsePre_computed.mpr ⟨rfl, t, h⟩, rfl⟩
    · exact ⟨.tree b a, parsePre_tree.mpr h, rfl⟩

/-! ## `GetTargetRepoIfPrecomputed` -/

theorem targetLoop_other (fuel : Nat) {d : Json N} (h : ∀ s, d ≠ .str s) :
    targetLoop repos fuel d = match parsePre d with
      | .root p => .ok (some p.repo) | .bad => .ok none | .throws => .fail := by
  cases d with
  | str s => exact absurd rfl (h s)
  | _ =>
    rw [targetLoop]
    · rfl
    · intro s hs; cases hs

theorem targetLoop_hang {fuel : Nat} {a : Str} (h : targetLoop repos fuel (.str a) = .hang)
    {l : List Str} (hl : Chain repos a l) : fuel < l.length := by
  induction hl generalizing fuel with
  | @stop a hn =>
    cases fuel with
    | zero => simp
    | succ fuel =>
      rw [targetLoop] at h
      split at h
      · rename_i l' hl'
        have hs : ∀ s, field "repository".toList l' ≠ .str s := fun s hs =>
          hn s ⟨(fun e => nomatch e), l', hl', field_str.mp hs⟩
        simp only [targetLoop_other _ hs] at h
        split at h <;> cases h
      · cases h
  | @step a b l h1 hl ih =>
    obtain ⟨_, l', h2, h3⟩ := h1
    cases fuel with
    | zero => simp
    | succ fuel =>
      rw [targetLoop] at h
      simp only [h2, field_str.mpr h3] at h
      have := ih h
      simp only [List.length_cons]
      omega

theorem targetLoop_hang_of {a : Str} (h : ¬ Grounded repos a) (fuel : Nat) :
    targetLoop repos fuel (.str a) = .hang := by
  induction fuel generalizing a with
  | zero =>
    have : ∃ b, Alias repos a b := by
      by_contra hn
      exact h (.intro a fun b hb => absurd ⟨b, hb⟩ hn)
    obtain ⟨b, _, l, h1, h2⟩ := this
    rw [targetLoop]
    simp only [h1]
  | succ fuel ih =>
    have : ∃ b, Alias repos a b := by
      by_contra hn
      exact h (.intro a fun b hb => absurd ⟨b, hb⟩ hn)
    obtain ⟨b, hb⟩ := this
    have hgb : ¬ Grounded repos b := fun hg => h ((grounded_of_alias hb).mpr hg)
    obtain ⟨_, l, h1, h2⟩ := hb
    rw [targetLoop]
    simp only [h1, field_str.mpr h2]
    exact ih hgb

/-- The search for the repository a root refers to does not end, however many steps are taken, exactly for
the names with a cyclic chain of aliases. -/
theorem targetOf_hang {a : Str} : targetOf repos a = .hang ↔ ¬ Grounded repos a := by
  constructor
  · intro h hg
    obtain ⟨l, hl⟩ := hg.chain
    have h1 := targetLoop_hang h hl
    have h2 := hl.length_le
    omega
  · intro h; exact targetLoop_hang_of h _

/-- On an acyclic chain the result is that for the explicit description, if there is one. -/
theorem targetLoop_ok {a : Str} {l : List Str} (hl : Chain repos a l) (fuel : Nat) (hf : l.length ≤ fuel) :
    (∃ d, Describes repos a d ∧ targetLoop repos fuel (.str a) = match parsePre d with
      | .root p => .ok (some p.repo) | .bad => .ok none | .throws => .fail) ∨
    ((∀ d, ¬ Describes repos a d) ∧ targetLoop repos fuel (.str a) = .ok none) := by
  induction hl generalizing fuel with
  | @stop a hn =>
    cases fuel with
    | zero => simp at hf
    | succ fuel =>
      rw [targetLoop]
      split
      · rename_i l' hl'
        have hs : ∀ s, field "repository".toList l' ≠ .str s := fun s hs =>
          hn s ⟨(fun e => nomatch e), l', hl', field_str.mp hs⟩
        simp only [targetLoop_other _ hs]
        cases ha : assoc "repository".toList l' with
        | none =>
          refine Or.inr ⟨?_, ?_⟩
          · intro d hd
            obtain ⟨l2, d2, h1, h2, _⟩ := describes_iff.mp hd
            rw [hl'] at h1; cases h1
            rw [ha] at h2; cases h2
          · simp only [field, ha, Option.getD_none, parsePre]
        | some d =>
          have hf : field "repository".toList l' = d := by rw [field, ha]; rfl
          rw [hf] at hs ⊢
          exact Or.inl ⟨d, .here hl' ha hs, rfl⟩
      · rename_i hno
        refine Or.inr ⟨?_, rfl⟩
        intro d hd
        obtain ⟨l2, d2, h1, _⟩ := describes_iff.mp hd
        exact hno _ h1
  | @step a b l h1 hl ih =>
    have hab := h1
    obtain ⟨_, l', h2, h3⟩ := h1
    cases fuel with
    | zero => simp at hf
    | succ fuel =>
      rw [targetLoop]
      simp only [h2, field_str.mpr h3]
      rcases ih fuel (by simpa using hf) with ⟨d, hd, he⟩ | ⟨hd, he⟩
      · exact Or.inl ⟨d, .via hab hd, he⟩
      · refine Or.inr ⟨?_, he⟩
        intro d h
        cases h with
        | here h4 h5 h6 => rw [h2] at h4; cases h4; rw [h3] at h5; cases h5; exact absurd rfl (h6 _)
        | via h4 h5 => rw [alias_det h4 hab] at h5; exact hd d h5

/-- The repository found is the one the explicit description refers to. -/
theorem targetOf_some {a b : Str} : targetOf repos a = .ok (some b) ↔ Refers repos a b := by
  constructor
  · intro h
    have hg : Grounded repos a := by
      by_contra hn
      rw [targetOf_hang.mpr hn] at h; cases h
    obtain ⟨l, hl⟩ := hg.chain
    rcases targetLoop_ok hl (repos.length + 1) hl.length_le with ⟨d, hd, he⟩ | ⟨_, he⟩
    · rw [targetOf, he] at h
      refine ⟨d, hd, ?_⟩
      split at h
      · rename_i p hp
        cases h
        exact parsePre_refers.mp ⟨p, hp, rfl⟩
      · cases h
      · cases h
    · rw [targetOf, he] at h; cases h
  · rintro ⟨d, hd, hr⟩
    obtain ⟨l, hl⟩ := hd.grounded.chain
    obtain ⟨p, hp, rfl⟩ := parsePre_refers.mpr hr
    rcases targetLoop_ok hl (repos.length + 1) hl.length_le with ⟨d', hd', he⟩ | ⟨hno, _⟩
    · rw [hd'.det hd] at he
      rw [targetOf, he, hp]
    · exact absurd hd (hno d)

end

end Verif.MrConfig
