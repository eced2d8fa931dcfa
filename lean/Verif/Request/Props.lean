import Verif.Request.Model

/-!
# C116: the input of an action as request
-/

namespace Verif.Request

section
variable {A N : Type}

/-! ## Specification -/

/-- A number as it is written. -/
def number (k : Int) : Str := if k < 0 then '-' :: decimal k.natAbs else decimal k.natAbs

/-- The action of a number: counted from the start, from 0, or, if it is negative, from the end. -/
def Numbered (own : List (Act A N)) (k : Int) (a : Act A N) : Prop :=
  ∃ before after, own = before ++ a :: after ∧ (k = before.length ∨ k = -(after.length + 1 : Int))

/-- The action of an identifier. -/
def Identified (graph : List (Act A N)) (i : Str) (a : Act A N) : Prop := a ∈ graph ∧ a.id = i

/-- just.1.md:366-376: what a request means. -/
def Means (graph own : List (Act A N)) (req : Str) (a : Act A N) : Prop :=
  (∃ i, req = '%' :: i ∧ Identified graph i a) ∨
  (∃ k, req = '#' :: number k ∧ Numbered own k a) ∨
  ((∀ r, req ≠ '%' :: r ∧ req ≠ '#' :: r) ∧
    (Identified graph req a ∨ ((∀ b, ¬ Identified graph req b) ∧ ∃ k, req = number k ∧ Numbered own k a)))

/-- Requests of one of the forms of the manual, with numbers of 32 bits. -/
def WellFormed (graph : List (Act A N)) (req : Str) : Prop :=
  (∃ i, req = '%' :: i) ∨ (∃ k, (req = '#' :: number k ∨ req = number k) ∧ -(2 ^ 31) ≤ k ∧ k < 2 ^ 31) ∨
  ((∀ r, req ≠ '#' :: r) ∧ ∃ b, Identified graph req b)

/-! ## Numbers -/

theorem atol_decimal (n : Nat) : atol (decimal n) = n := by
  obtain ⟨d, t, hd, e⟩ := decimal_head n
  obtain ⟨_, _, h3, h4, h5⟩ := digitChar_cases d hd
  have hl := leadingDigits_decimal n [] nofun
  unfold atol
  rw [e, List.append_nil] at hl
  rw [e, List.dropWhile_cons, h3]
  simp only [Bool.false_eq_true, if_false, h4, h5, hl]

theorem atol_number (k : Int) : atol (number k) = k := by
  unfold number
  split
  · have hl := leadingDigits_decimal k.natAbs [] nofun
    rw [List.append_nil] at hl
    have hs : isSpace '-' = false := by decide
    unfold atol
    rw [List.dropWhile_cons, hs]
    simp only [Bool.false_eq_true, if_false, if_true, hl]
    omega
  · rw [atol_decimal]
    omega

theorem number_inj {k k' : Int} (h : number k = number k') : k = k' := by
  rw [← atol_number k, ← atol_number k', h]

theorem number_first (k : Int) : ∃ c r, number k = c :: r ∧ c ≠ '%' ∧ c ≠ '#' := by
  unfold number
  split
  · exact ⟨_, _, rfl, by decide, by decide⟩
  · obtain ⟨d, t, hd, e⟩ := decimal_head k.natAbs
    refine ⟨_, _, e, ?_⟩
    have : ∀ d, d < 10 → digitChar d ≠ '%' ∧ digitChar d ≠ '#' := by decide
    exact this d hd

/-! ## Lists -/

theorem numbered_iff (own : List (Act A N)) (k : Int) (a : Act A N) : actionNumber own k = some a ↔ Numbered own k a := by
  unfold actionNumber Numbered
  have pos : ∀ i : Nat, own[i]? = some a ↔ ∃ before after, own = before ++ a :: after ∧ before.length = i := by
    intro i
    constructor
    · intro h
      obtain ⟨hi, e⟩ := List.getElem?_eq_some_iff.mp h
      refine ⟨own.take i, own.drop (i + 1), ?_, by simp; omega⟩
      rw [← e, List.getElem_cons_drop, List.take_append_drop]
    · rintro ⟨b, t, rfl, rfl⟩
      simp
  split
  · rename_i hk
    constructor
    · intro h
      split at h
      · obtain ⟨b, t, e, hb⟩ := (pos _).mp h
        exact ⟨b, t, e, .inl (by omega)⟩
      · cases h
    · rintro ⟨b, t, e, h⟩
      rw [if_pos (by rw [e]; simp; omega)]
      exact (pos _).mpr ⟨b, t, e, by omega⟩
  · rename_i hk
    constructor
    · intro h
      split at h
      · obtain ⟨b, t, e, hb⟩ := (pos _).mp h
        refine ⟨b, t, e, .inr ?_⟩
        have : own.length = b.length + (t.length + 1) := by rw [e]; simp
        omega
      · cases h
    · rintro ⟨b, t, e, h⟩
      have : own.length = b.length + (t.length + 1) := by rw [e]; simp
      rw [if_pos (by omega)]
      exact (pos _).mpr ⟨b, t, e, by omega⟩

theorem identified_none (graph : List (Act A N)) (i : Str) : getAction graph i = none ↔ ∀ a, ¬ Identified graph i a := by
  unfold getAction Identified
  rw [List.find?_eq_none]
  constructor
  · rintro h a ⟨h1, h2⟩
    exact h a h1 (by simpa using h2)
  · intro h a ha e
    exact h a ⟨ha, by simpa using e⟩

theorem identified_some {graph : List (Act A N)} (hu : ∀ a ∈ graph, ∀ b ∈ graph, a.id = b.id → a = b) (i : Str) (a : Act A N) :
    getAction graph i = some a ↔ Identified graph i a := by
  constructor
  · intro h
    exact ⟨List.mem_of_find?_eq_some h, by simpa using List.find?_some h⟩
  · rintro ⟨h1, h2⟩
    cases e : getAction graph i with
    | none => exact absurd ⟨h1, h2⟩ ((identified_none graph i).mp e a)
    | some b =>
      have hb : b.id = i := by simpa using List.find?_some e
      rw [hu b (List.mem_of_find?_eq_some e) a h1 (hb.trans h2.symm)]

theorem byNumber_iff (own : List (Act A N)) {k : Int} (h1 : -(2 ^ 31) ≤ k) (h2 : k < 2 ^ 31) (a : Act A N) :
    byNumber own (number k) = .found a ↔ Numbered own k a := by
  unfold byNumber
  rw [atol_number, if_pos ⟨h1, h2⟩, ← numbered_iff]
  cases actionNumber own k <;> simp

theorem byNumber_error (own : List (Act A N)) {k : Int} (h1 : -(2 ^ 31) ≤ k) (h2 : k < 2 ^ 31) :
    byNumber own (number k) = .error ↔ ∀ a, ¬ Numbered own k a := by
  unfold byNumber
  rw [atol_number, if_pos ⟨h1, h2⟩]
  simp only [← numbered_iff]
  cases actionNumber own k <;> simp

theorem choose_plain {graph own : List (Act A N)} {req : Str} (h : ∀ r, req ≠ '%' :: r ∧ req ≠ '#' :: r) :
    choose graph own req = match getAction graph req with
      | some a => .found a
      | none => byNumber own req := by
  cases req with
  | nil => rfl
  | cons c r =>
    rw [choose, if_neg (by rintro rfl; exact (h r).1 rfl), if_neg (by rintro rfl; exact (h r).2 rfl)]
    rfl

theorem number_plain (k : Int) : ∀ r, number k ≠ '%' :: r ∧ number k ≠ '#' :: r := by
  obtain ⟨c, t, e, h1, h2⟩ := number_first k
  intro r
  rw [e]
  exact ⟨fun h => h1 (List.cons.inj h).1, fun h => h2 (List.cons.inj h).1⟩

/-! ## Properties -/

/-- **C116**, part. The action chosen for a request is the one that is meant, according to the manual. Missing: what is neither an
identifier nor a number (C116_violation_garbage, C116_violation_rest), and numbers of more than 32 bits (C116_violation_large). -/
theorem C116_chosen_partial {graph own : List (Act A N)} (hu : ∀ a ∈ graph, ∀ b ∈ graph, a.id = b.id → a = b) {req : Str}
    (hw : WellFormed graph req) (a : Act A N) : choose graph own req = .found a ↔ Means graph own req a := by
  by_cases hp : ∀ r, req ≠ '%' :: r ∧ req ≠ '#' :: r
  · rw [choose_plain hp]
    have hm : Means graph own req a ↔
        (Identified graph req a ∨ ((∀ b, ¬ Identified graph req b) ∧ ∃ k, req = number k ∧ Numbered own k a)) := by
      constructor
      · rintro (⟨i, e, -⟩ | ⟨k, e, -⟩ | ⟨-, h⟩)
        · exact absurd e (hp _).1
        · exact absurd e (hp _).2
        · exact h
      · exact fun h => .inr (.inr ⟨hp, h⟩)
    rw [hm]
    cases e : getAction graph req with
    | some b =>
      have hb := (identified_some hu req b).mp e
      constructor
      · rintro ⟨⟩
        exact .inl hb
      · rintro (h | ⟨h, -⟩)
        · rw [(identified_some hu req a).mpr h] at e
          cases e; rfl
        · exact absurd hb (h b)
    | none =>
      have hn := (identified_none graph req).mp e
      rcases hw with ⟨i, e⟩ | ⟨k, e | rfl, h1, h2⟩ | ⟨-, b, hb⟩
      · exact absurd e (hp _).1
      · exact absurd e (hp _).2
      · show byNumber own (number k) = .found a ↔ _
        rw [byNumber_iff own h1 h2]
        constructor
        · exact fun h => .inr ⟨hn, k, rfl, h⟩
        · rintro (h | ⟨-, k', e, h⟩)
          · exact absurd h (hn a)
          · rwa [number_inj e]
      · exact absurd hb (hn b)
  · cases req with
    | nil => exact absurd (fun r => ⟨nofun, nofun⟩) hp
    | cons c r =>
      by_cases h1 : c = '%'
      · subst h1
        have hm : Means graph own ('%' :: r) a ↔ Identified graph r a := by
          constructor
          · rintro (⟨i, e, h⟩ | ⟨k, e, -⟩ | ⟨h, -⟩)
            · cases e; exact h
            · cases e
            · exact absurd rfl (h r).1
          · exact fun h => .inl ⟨r, rfl, h⟩
        rw [hm, choose, if_pos rfl, ← identified_some hu]
        cases getAction graph r <;> simp
      · by_cases h2 : c = '#'
        · subst h2
          rcases hw with ⟨i, e⟩ | ⟨k, e | e, g1, g2⟩ | ⟨h, -⟩
          · cases e
          · cases e
            rw [choose, if_neg (by decide), if_pos rfl, byNumber_iff own g1 g2]
            constructor
            · exact fun h => .inr (.inl ⟨k, rfl, h⟩)
            · rintro (⟨i, e, -⟩ | ⟨k', e, h⟩ | ⟨h, -⟩)
              · cases e
              · rwa [number_inj (List.cons.inj e).2]
              · exact absurd rfl (h _).2
          · exact absurd e.symm (number_plain k r).2
          · exact absurd rfl (h r)
        · exact absurd (fun r' => ⟨fun e => h1 (List.cons.inj e).1, fun e => h2 (List.cons.inj e).1⟩) hp

/-- **C116**, part. There is an error if and only if no action is meant. Missing: as for C116_chosen_partial. -/
theorem C116_refused_partial {graph own : List (Act A N)} (hu : ∀ a ∈ graph, ∀ b ∈ graph, a.id = b.id → a = b) {req : Str}
    (hw : WellFormed graph req) : choose graph own req = .error ↔ ∀ a, ¬ Means graph own req a := by
  constructor
  · intro h a ha
    rw [(C116_chosen_partial hu hw a).mpr ha] at h
    cases h
  · intro h
    cases e : choose graph own req with
    | found a => exact absurd ((C116_chosen_partial hu hw a).mp e) (h a)
    | error => rfl
    | ub =>
      exfalso
      have hb : ∀ k : Int, -(2 ^ 31) ≤ k → k < 2 ^ 31 → byNumber own (number k) ≠ .ub := by
        intro k h1 h2
        unfold byNumber
        rw [atol_number, if_pos ⟨h1, h2⟩]
        cases actionNumber own k <;> simp
      rcases hw with ⟨i, rfl⟩ | ⟨k, rfl | rfl, h1, h2⟩ | ⟨h', b, hb'⟩
      · rw [choose, if_pos rfl] at e
        cases hg : getAction graph i <;> simp [hg] at e
      · rw [choose, if_neg (by decide), if_pos rfl] at e
        exact hb k h1 h2 e
      · rw [choose_plain (number_plain k)] at e
        cases hg : getAction graph (number k) with
        | none => rw [hg] at e; exact hb k h1 h2 e
        | some a => rw [hg] at e; cases e
      · have hg := (identified_some hu req b).mpr hb'
        cases req with
        | nil => simp [choose, hg] at e
        | cons c r =>
          rw [choose] at e
          split at e
          · cases hg' : getAction graph r <;> simp [hg'] at e
          · rw [if_neg (by rintro rfl; exact h' r rfl), hg] at e
            cases e

/-- **C116.** A request with an identifier depends on that identifier only: neither on the order of the targets, nor on the actions of
the target. -/
theorem C116_order {graph graph' : List (Act A N)} (own own' : List (Act A N)) (hp : graph.Perm graph')
    (hu : ∀ a ∈ graph, ∀ b ∈ graph, a.id = b.id → a = b) (i : Str) :
    choose graph own ('%' :: i) = choose graph' own' ('%' :: i) := by
  have : getAction graph i = getAction graph' i := by
    cases e : getAction graph' i with
    | none =>
      rw [identified_none] at e ⊢
      exact fun a h => e a ⟨hp.mem_iff.mp h.1, h.2⟩
    | some a =>
      have := (identified_some (fun a ha b hb => hu a (hp.mem_iff.mpr ha) b (hp.mem_iff.mpr hb)) i a).mp e
      exact (identified_some hu i a).mpr ⟨hp.mem_iff.mpr this.1, this.2⟩
  rw [choose, choose, if_pos rfl, if_pos rfl, this]

/-! ### The result -/

theorem strings_inj {l l' : List Str} (h : (strings l : Json N) = strings l') : l = l' := by
  have := Json.arr.inj h
  induction l generalizing l' with
  | nil => cases l' with
    | nil => rfl
    | cons x l' => cases this
  | cons x l ih => cases l' with
    | nil => cases this
    | cons y l' =>
      rw [List.map_cons, List.map_cons] at this
      obtain ⟨h1, h2⟩ := List.cons.inj this
      rw [Json.str.inj h1, ih (by unfold strings; rw [h2]) h2]

theorem table_inj {l l' : List (Str × Str)} (h : (table l : Json N) = table l') : l = l' := by
  have := Json.obj.inj h
  induction l generalizing l' with
  | nil => cases l' with
    | nil => rfl
    | cons x l' => cases this
  | cons x l ih => cases l' with
    | nil => cases this
    | cons y l' =>
      rw [List.map_cons, List.map_cons] at this
      obtain ⟨h1, h2⟩ := List.cons.inj this
      obtain ⟨h3, h4⟩ := Prod.mk.inj h1
      rw [ih (by unfold table; rw [h2]) h2, show x = y from Prod.ext h3 (Json.str.inj h4)]

/-- The entry of a key. -/
def entry (l : List (Str × Json N)) (k : Str) : Option (Json N) := (l.find? fun p => p.1 = k).map Prod.snd

theorem entry_cons (p : Str × Json N) (l : List (Str × Json N)) (k : Str) :
    entry (p :: l) k = if p.1 = k then some p.2 else entry l k := by
  unfold entry
  rw [List.find?_cons]
  by_cases h : p.1 = k <;> simp [h]

theorem entry_append (l l' : List (Str × Json N)) (k : Str) : entry (l ++ l') k = (entry l k).or (entry l' k) := by
  induction l with
  | nil => rfl
  | cons p l ih =>
    rw [List.cons_append, entry_cons, entry_cons, ih]
    split <;> rfl

theorem entry_nil (k : Str) : entry ([] : List (Str × Json N)) k = none := rfl

theorem entry_if (c : Prop) [Decidable c] (p : Str × Json N) (k : Str) :
    entry (if c then [p] else []) k = if p.1 = k then (if c then some p.2 else none) else none := by
  by_cases hc : c <;> simp [hc, entry_cons, entry_nil]

theorem entry_ifnot (c : Prop) [Decidable c] (p : Str × Json N) (k : Str) :
    entry (if c then [] else [p]) k = if p.1 = k then (if c then none else some p.2) else none := by
  by_cases hc : c <;> simp [hc, entry_cons, entry_nil]

theorem entry_opt (m : Option Str) (k' : Str) (k : Str) :
    entry (match m with | some m => [(k', .str m)] | none => ([] : List (Str × Json N))) k = if k' = k then m.map .str else none := by
  cases m <;> simp [entry_cons, entry_nil]

theorem entries {k1 k2 k3 k4 k5 k6 k7 k8 k9 : Str} (v1 v2 v3 v4 v6 v7 v8 v9 : Json N) (m : Option Str) (b : Bool) (p7 p8 p9 : Prop) [Decidable p7]
    [Decidable p8] [Decidable p9] (h : [k1, k2, k3, k4, k5, k6, k7, k8, k9].Pairwise (· ≠ ·)) :
    let l : List (Str × Json N) := [(k1, v1), (k2, v2), (k3, v3), (k4, v4)] ++ (match m with | some m => [(k5, .str m)] | none => []) ++
      (if b then [(k6, v6)] else []) ++ (if ¬ p7 then [(k7, v7)] else []) ++ (if ¬ p8 then [(k8, v8)] else []) ++
      if ¬ p9 then [(k9, v9)] else []
    entry l k1 = some v1 ∧
    entry l k2 = some v2 ∧
    entry l k3 = some v3 ∧
    entry l k4 = some v4 ∧
    entry l k5 = m.map .str ∧
    entry l k6 = (if b then some v6 else none) ∧
    entry l k7 = (if p7 then none else some v7) ∧
    entry l k8 = (if p8 then none else some v8) ∧
    entry l k9 = (if p9 then none else some v9) := by
  simp only [List.pairwise_cons, List.mem_cons, List.not_mem_nil, or_false, forall_eq_or_imp, forall_eq, ne_eq] at h
  obtain ⟨⟨h12, h13, h14, h15, h16, h17, h18, h19⟩, ⟨h23, h24, h25, h26, h27, h28, h29⟩, ⟨h34, h35, h36, h37, h38, h39⟩, ⟨h45, h46, h47, h48, h49⟩, ⟨h56, h57, h58, h59⟩, ⟨h67, h68, h69⟩, ⟨h78, h79⟩, h89, -⟩ := h
  have g21 : ¬ k2 = k1 := fun e => h12 e.symm
  have g31 : ¬ k3 = k1 := fun e => h13 e.symm
  have g41 : ¬ k4 = k1 := fun e => h14 e.symm
  have g51 : ¬ k5 = k1 := fun e => h15 e.symm
  have g61 : ¬ k6 = k1 := fun e => h16 e.symm
  have g71 : ¬ k7 = k1 := fun e => h17 e.symm
  have g81 : ¬ k8 = k1 := fun e => h18 e.symm
  have g91 : ¬ k9 = k1 := fun e => h19 e.symm
  have g32 : ¬ k3 = k2 := fun e => h23 e.symm
  have g42 : ¬ k4 = k2 := fun e => h24 e.symm
  have g52 : ¬ k5 = k2 := fun e => h25 e.symm
  have g62 : ¬ k6 = k2 := fun e => h26 e.symm
  have g72 : ¬ k7 = k2 := fun e => h27 e.symm
  have g82 : ¬ k8 = k2 := fun e => h28 e.symm
  have g92 : ¬ k9 = k2 := fun e => h29 e.symm
  have g43 : ¬ k4 = k3 := fun e => h34 e.symm
  have g53 : ¬ k5 = k3 := fun e => h35 e.symm
  have g63 : ¬ k6 = k3 := fun e => h36 e.symm
  have g73 : ¬ k7 = k3 := fun e => h37 e.symm
  have g83 : ¬ k8 = k3 := fun e => h38 e.symm
  have g93 : ¬ k9 = k3 := fun e => h39 e.symm
  have g54 : ¬ k5 = k4 := fun e => h45 e.symm
  have g64 : ¬ k6 = k4 := fun e => h46 e.symm
  have g74 : ¬ k7 = k4 := fun e => h47 e.symm
  have g84 : ¬ k8 = k4 := fun e => h48 e.symm
  have g94 : ¬ k9 = k4 := fun e => h49 e.symm
  have g65 : ¬ k6 = k5 := fun e => h56 e.symm
  have g75 : ¬ k7 = k5 := fun e => h57 e.symm
  have g85 : ¬ k8 = k5 := fun e => h58 e.symm
  have g95 : ¬ k9 = k5 := fun e => h59 e.symm
  have g76 : ¬ k7 = k6 := fun e => h67 e.symm
  have g86 : ¬ k8 = k6 := fun e => h68 e.symm
  have g96 : ¬ k9 = k6 := fun e => h69 e.symm
  have g87 : ¬ k8 = k7 := fun e => h78 e.symm
  have g97 : ¬ k9 = k7 := fun e => h79 e.symm
  have g98 : ¬ k9 = k8 := fun e => h89 e.symm
  intro l
  refine ⟨?_, ?_, ?_, ?_, ?_, ?_, ?_, ?_, ?_⟩ <;>
    simp only [l, entry_append, entry_cons, entry_nil, entry_opt, entry_if, entry_ifnot, if_true, if_false, Option.none_or, Option.or_none, ite_not,
      h12, g21, h13, g31, h14, g41, h15, g51, h16, g61, h17, g71, h18, g81, h19, g91, h23, g32, h24, g42, h25, g52, h26, g62, h27, g72, h28, g82, h29, g92, h34, g43, h35, g53, h36, g63, h37, g73, h38, g83, h39, g93, h45, g54, h46, g64, h47, g74, h48, g84, h49, g94, h56, g65, h57, g75, h58, g85, h59, g95, h67, g76, h68, g86, h69, g96, h78, g87, h79, g97, h89, g98]

/-- **C116.** The artifacts are the inputs of the action, there are no runfiles, and the rest of the action is provided, key by key. -/
theorem C116_provides [DecidableEq N] (one : N) (a : Act A N) :
    (switch one a).artifacts = a.inputs ∧ (switch one a).runfiles = [] ∧
    entry (switch one a).provides "cmd".toList = some (strings a.cmd) ∧ entry (switch one a).provides "env".toList = some (table a.env) ∧
    entry (switch one a).provides "output".toList = some (strings a.files) ∧ entry (switch one a).provides "output_dirs".toList = some (strings a.dirs) ∧
    entry (switch one a).provides "may_fail".toList = a.mayFail.map .str ∧
    entry (switch one a).provides "no_cache".toList = (if a.noCache then some (.bool true) else none) ∧
    entry (switch one a).provides "timeout scaling".toList = (if a.timeout = one then none else some (.num a.timeout)) ∧
    entry (switch one a).provides "cwd".toList = (if a.cwd = [] then none else some (.str a.cwd)) ∧
    entry (switch one a).provides "execution properties".toList = (if a.props = [] then none else some (table a.props)) := by
  refine ⟨rfl, rfl, ?_⟩
  exact entries (strings a.cmd) (table a.env) (strings a.files) (strings a.dirs) (.bool true) (.num a.timeout) (.str a.cwd) (table a.props)
    a.mayFail a.noCache (a.timeout = one) (a.cwd = []) (a.props = []) (by decide +kernel)

/-- **C116.** Nothing about the action is lost, apart from its identifier: it is determined by the result. -/
theorem C116_complete [DecidableEq N] {one : N} {a b : Act A N} (h : switch one a = switch one b) : { a with id := [] } = { b with id := [] } := by
  have hi : a.inputs = b.inputs := congrArg Result.artifacts h
  have hp : (switch one a).provides = (switch one b).provides := congrArg Result.provides h
  obtain ⟨-, -, a1, a2, a3, a4, a5, a6, a7, a8, a9⟩ := C116_provides one a
  obtain ⟨-, -, b1, b2, b3, b4, b5, b6, b7, b8, b9⟩ := C116_provides one b
  rw [hp] at a1 a2 a3 a4 a5 a6 a7 a8 a9
  have e1 := strings_inj (Option.some.inj (a1.symm.trans b1))
  have e2 := table_inj (Option.some.inj (a2.symm.trans b2))
  have e3 := strings_inj (Option.some.inj (a3.symm.trans b3))
  have e4 := strings_inj (Option.some.inj (a4.symm.trans b4))
  have e5 : a.mayFail = b.mayFail := by
    have := a5.symm.trans b5
    cases ha : a.mayFail <;> cases hb : b.mayFail <;> simp [ha, hb] at this <;> simp [this]
  have e6 : a.noCache = b.noCache := by
    have := a6.symm.trans b6
    cases ha : a.noCache <;> cases hb : b.noCache <;> simp [ha, hb] at this <;> rfl
  have e7 : a.timeout = b.timeout := by
    have := a7.symm.trans b7
    by_cases ha : a.timeout = one <;> by_cases hb : b.timeout = one <;> simp [ha, hb] at this
    · rw [ha, hb]
    · exact this
  have e8 : a.cwd = b.cwd := by
    have := a8.symm.trans b8
    by_cases ha : a.cwd = [] <;> by_cases hb : b.cwd = [] <;> simp [ha, hb] at this
    · rw [ha, hb]
    · exact this
  have e9 : a.props = b.props := by
    have := a9.symm.trans b9
    by_cases ha : a.props = [] <;> by_cases hb : b.props = [] <;> simp [ha, hb] at this
    · rw [ha, hb]
    · exact table_inj this
  obtain ⟨⟩ := a
  obtain ⟨⟩ := b
  simp only at *
  subst e1 e2 e3 e4 e5 e6 e7 e8 e9 hi
  rfl

end

end Verif.Request
