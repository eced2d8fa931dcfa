import Verif.Util.OMap

/-!
# JSON values and their textual form

Model of the part of `nlohmann::json` that is used to compute identifiers: values and `dump`.
Objects are `std::map`s, i.e. association lists with ascending keys.  Numbers are an arbitrary type with a
printing function; the assumptions on it (`NumText`) are met by the decimal notation of `dump`.  Strings
that are not valid UTF-8, on which `dump` throws, are not excluded: their bytes are copied here.
The library itself is not part of /repo and belongs to the trusted base.
-/

namespace Verif

/-- A JSON value with numbers in `N`. -/
inductive Json (N : Type) where
  | null
  | bool (b : Bool)
  | num (n : N)
  | str (s : Str)
  | arr (l : List (Json N))
  | obj (l : List (Str × Json N))

namespace Json

/-- Hexadecimal digit. -/
def hexDigit (n : Nat) : Char :=
  ("0123456789abcdef".toList)[n]?.getD '0'

/-- Escape sequence of a character inside a string: `nlohmann::detail::serializer::dump_escaped` with
`ensure_ascii = false`. -/
def esc (c : Char) : Str :=
  if c = '"' then ['\\', '"']
  else if c = '\\' then ['\\', '\\']
  else if c = '\n' then ['\\', 'n']
  else if c = '\t' then ['\\', 't']
  else if c = '\r' then ['\\', 'r']
  else if c.toNat = 8 then ['\\', 'b']
  else if c.toNat = 12 then ['\\', 'f']
  else if c.toNat < 32 then
    ['\\', 'u', '0', '0', hexDigit (c.toNat / 16), hexDigit (c.toNat % 16)]
  else [c]

/-- Quoted string. -/
def quote (s : Str) : Str := '"' :: s.flatMap esc ++ ['"']

/-- Layout of the output: what is printed at the beginning of a line at each level, and between key and
value. -/
structure Layout where
  nl : Nat → Str
  colon : Str

/-- `dump()`: everything in one line. -/
def compact : Layout := ⟨fun _ => [], [':']⟩

/-- `dump(n)`: one line per element, indented by `n` for each level. -/
def pretty (n : Nat) : Layout := ⟨fun k => '\n' :: List.replicate (n * k) ' ', [':', ' ']⟩

section
variable {N : Type} (numText : N → Str) (L : Layout)

mutual
/-- `nlohmann::json::dump` at nesting level `k`. -/
def dump (k : Nat) : Json N → Str
  | null => "null".toList
  | bool b => if b then "true".toList else "false".toList
  | num n => numText n
  | str s => quote s
  | arr [] => ['[', ']']
  | arr (a :: l) => '[' :: (L.nl (k + 1) ++ dump (k + 1) a ++ dumpElems (k + 1) l ++ L.nl k ++ [']'])
  | obj [] => ['{', '}']
  | obj (a :: l) =>
    '{' :: (L.nl (k + 1) ++ dumpPair (k + 1) a ++ dumpPairs (k + 1) l ++ L.nl k ++ ['}'])
/-- Further elements of an array. -/
def dumpElems (k : Nat) : List (Json N) → Str
  | [] => []
  | a :: l => ',' :: (L.nl k ++ dump k a ++ dumpElems k l)
/-- A key with its value. -/
def dumpPair (k : Nat) : Str × Json N → Str
  | (s, v) => quote s ++ L.colon ++ dump k v
/-- Further pairs of an object. -/
def dumpPairs (k : Nat) : List (Str × Json N) → Str
  | [] => []
  | a :: l => ',' :: (L.nl k ++ dumpPair k a ++ dumpPairs k l)
end

end

/-- Characters of the notation of numbers. -/
def isNum (c : Char) : Bool := c.isDigit || c == '-' || c == '+' || c == '.' || c == 'e' || c == 'E'

/-- What is needed of the notation of numbers. -/
structure NumText {N : Type} (numText : N → Str) : Prop where
  inj : Function.Injective numText
  chars : ∀ n, ∀ c ∈ numText n, isNum c = true
  first : ∀ n, ∃ c t, numText n = c :: t ∧ (c.isDigit || c == '-') = true

/-- What is needed of a layout. -/
structure Layout.OK (L : Layout) : Prop where
  nl : ∀ k, ∀ c ∈ L.nl k, c = ' ' ∨ c = '\n'

theorem compact_ok : compact.OK := ⟨fun k c h => by cases h⟩

theorem pretty_ok (n : Nat) : (pretty n).OK := ⟨fun k c h => by
  simp only [pretty, List.mem_cons, List.mem_replicate] at h
  rcases h with h | h
  · exact Or.inr h
  · exact Or.inl h.2⟩

/-! ## Strings -/

theorem hexDigit_inj : ∀ n, n < 32 → ∀ m, m < 32 →
    hexDigit (n / 16) = hexDigit (m / 16) → hexDigit (n % 16) = hexDigit (m % 16) → n = m := by
  decide

/-- Shape of an escape sequence. -/
theorem esc_cases (c : Char) :
    (∃ x, esc c = ['\\', x] ∧ x ≠ 'u' ∧
      (x, c) ∈ [('"', '"'), ('\\', '\\'), ('n', '\n'), ('t', '\t'), ('r', '\r'),
        ('b', Char.ofNat 8), ('f', Char.ofNat 12)]) ∨
    (esc c = ['\\', 'u', '0', '0', hexDigit (c.toNat / 16), hexDigit (c.toNat % 16)] ∧ c.toNat < 32) ∨
    (esc c = [c] ∧ c ≠ '"' ∧ c ≠ '\\') := by
  unfold esc
  split
  · rename_i h; subst h
    exact Or.inl ⟨'"', rfl, by decide, by decide⟩
  split
  · rename_i h; subst h
    exact Or.inl ⟨_, rfl, by decide, by decide⟩
  split
  · rename_i h; subst h
    exact Or.inl ⟨_, rfl, by decide, by decide⟩
  split
  · rename_i h; subst h
    exact Or.inl ⟨_, rfl, by decide, by decide⟩
  split
  · rename_i h; subst h
    exact Or.inl ⟨_, rfl, by decide, by decide⟩
  split
  · rename_i h
    have : c = Char.ofNat 8 := by rw [← h, Char.ofNat_toNat]
    subst this
    exact Or.inl ⟨_, rfl, by decide, by decide⟩
  split
  · rename_i h
    have : c = Char.ofNat 12 := by rw [← h, Char.ofNat_toNat]
    subst this
    exact Or.inl ⟨_, rfl, by decide, by decide⟩
  split
  · rename_i h
    exact Or.inr (Or.inl ⟨rfl, h⟩)
  · rename_i h1 h2 _ _ _ _ _ _
    exact Or.inr (Or.inr ⟨rfl, h1, h2⟩)

theorem esc_head (c : Char) (r : Str) : ∃ x t, esc c ++ r = x :: t ∧ x ≠ '"' := by
  rcases esc_cases c with ⟨x, h, _⟩ | ⟨h, _⟩ | ⟨h, h1, h2⟩
  · exact ⟨'\\', x :: r, by rw [h]; rfl, by decide⟩
  · exact ⟨'\\', _, by rw [h]; rfl, by decide⟩
  · exact ⟨c, r, by rw [h]; rfl, h1⟩

theorem esc_inj {c d : Char} {r r' : Str} (h : esc c ++ r = esc d ++ r') : c = d ∧ r = r' := by
  rcases esc_cases c with ⟨x, hc, hu, hm⟩ | ⟨hc, hl⟩ | ⟨hc, h1, h2⟩ <;>
    rcases esc_cases d with ⟨y, hd, hu', hm'⟩ | ⟨hd, hl'⟩ | ⟨hd, h1', h2'⟩ <;>
    rw [hc, hd] at h <;> simp only [List.cons_append, List.nil_append, List.cons.injEq] at h
  · obtain ⟨-, rfl, rfl⟩ := h
    refine ⟨?_, rfl⟩
    simp only [List.mem_cons, Prod.mk.injEq, List.not_mem_nil, or_false] at hm hm'
    rcases hm with ⟨rfl, rfl⟩ | ⟨rfl, rfl⟩ | ⟨rfl, rfl⟩ | ⟨rfl, rfl⟩ | ⟨rfl, rfl⟩ | ⟨rfl, rfl⟩ | ⟨rfl, rfl⟩ <;>
      simp at hm' <;> exact hm'.symm
  · exact absurd h.2.1 hu
  · exact absurd h.1.symm h2'
  · exact absurd h.2.1.symm hu'
  · obtain ⟨-, -, -, -, e1, e2, rfl⟩ := h
    have := hexDigit_inj _ hl _ hl' e1 e2
    exact ⟨Char.ext (UInt32.toNat_inj.1 this), rfl⟩
  · exact absurd h.1.symm h2'
  · exact absurd h.1 h2
  · exact absurd h.1 h2
  · exact h

theorem quote_inj {s s' r r' : Str} (h : quote s ++ r = quote s' ++ r') : s = s' ∧ r = r' := by
  unfold quote at h
  simp only [List.cons_append, List.append_assoc, List.nil_append, List.cons.injEq, true_and] at h
  induction s generalizing s' with
  | nil =>
    cases s' with
    | nil => simpa using h
    | cons d t =>
      obtain ⟨x, u, e, hx⟩ := esc_head d (List.flatMap esc t ++ '"' :: r')
      simp only [List.flatMap_nil, List.nil_append, List.flatMap_cons, List.append_assoc] at h
      rw [e] at h
      exact absurd (List.cons.inj h).1.symm hx
  | cons c t ih =>
    cases s' with
    | nil =>
      obtain ⟨x, u, e, hx⟩ := esc_head c (List.flatMap esc t ++ '"' :: r)
      simp only [List.flatMap_nil, List.nil_append, List.flatMap_cons, List.append_assoc] at h
      rw [e] at h
      exact absurd (List.cons.inj h).1 hx
    | cons d t' =>
      simp only [List.flatMap_cons, List.append_assoc] at h
      obtain ⟨e, h'⟩ := esc_inj h
      obtain ⟨rfl, rfl⟩ := ih h'
      subst e
      exact ⟨rfl, rfl⟩

/-! ## Values -/

/-- A text that cannot continue a number. -/
def Stop (r : Str) : Prop := ∀ c t, r = c :: t → isNum c = false

theorem stop_append {a r : Str} (ha : ∀ c ∈ a, isNum c = false) (hr : Stop r) : Stop (a ++ r) := by
  intro c t h
  cases a with
  | nil => exact hr c t h
  | cons x a =>
    rw [List.cons_append] at h
    obtain ⟨rfl, -⟩ := List.cons.inj h
    exact ha x List.mem_cons_self

theorem stop_cons {c : Char} {r : Str} (h : isNum c = false) : Stop (c :: r) := by
  intro d t e
  rw [← (List.cons.inj e).1]
  exact h

/-- Numbers end where the first other character is. -/
theorem num_inj {N : Type} {numText : N → Str} (hN : NumText numText) {n m : N} {r r' : Str}
    (hr : Stop r) (hr' : Stop r') (h : numText n ++ r = numText m ++ r') : n = m ∧ r = r' := by
  have key : ∀ a b : Str, (∀ c ∈ a, isNum c = true) → (∀ c ∈ b, isNum c = true) →
      a ++ r = b ++ r' → a = b ∧ r = r' := by
    intro a
    induction a with
    | nil =>
      intro b _ hb h
      cases b with
      | nil => exact ⟨rfl, h⟩
      | cons y b =>
        have := hr y (b ++ r') h
        rw [hb y List.mem_cons_self] at this
        cases this
    | cons x a ih =>
      intro b ha hb h
      cases b with
      | nil =>
        have := hr' x (a ++ r) h.symm
        rw [ha x List.mem_cons_self] at this
        cases this
      | cons y b =>
        rw [List.cons_append, List.cons_append] at h
        obtain ⟨e, h'⟩ := List.cons.inj h
        subst e
        obtain ⟨rfl, rfl⟩ := ih b (fun c hc => ha c (List.mem_cons_of_mem _ hc))
          (fun c hc => hb c (List.mem_cons_of_mem _ hc)) h'
        exact ⟨rfl, rfl⟩
  obtain ⟨h1, h2⟩ := key _ _ (hN.chars n) (hN.chars m) h
  exact ⟨hN.inj h1, h2⟩

/-- Type of a value, as far as it can be seen from the first character. -/
def tag {N : Type} : Json N → Nat
  | null => 0
  | bool true => 1
  | bool false => 2
  | num _ => 3
  | str _ => 4
  | arr _ => 5
  | obj _ => 6

/-- The same for the character. -/
def charTag (c : Char) : Nat :=
  if c = 'n' then 0 else if c = 't' then 1 else if c = 'f' then 2 else if c = '"' then 4
  else if c = '[' then 5 else if c = '{' then 6
  else if (c.isDigit || c == '-') = true then 3 else 7

theorem charTag_digit {c : Char} (h : (c.isDigit || c == '-') = true) : charTag c = 3 := by
  unfold charTag
  have : ∀ d : Char, (d.isDigit || d == '-') = false → c ≠ d := by
    intro d hd e
    rw [e, hd] at h
    cases h
  rw [if_neg (this _ (by decide)), if_neg (this _ (by decide)), if_neg (this _ (by decide)),
    if_neg (this _ (by decide)), if_neg (this _ (by decide)), if_neg (this _ (by decide)), if_pos h]

section
variable {N : Type} {numText : N → Str} {L : Layout}

theorem dump_head (hN : NumText numText) (k : Nat) (j : Json N) :
    ∃ c t, dump numText L k j = c :: t ∧ charTag c = tag j ∧ tag j < 7 := by
  cases j with
  | null => exact ⟨'n', "ull".toList, by unfold dump; rfl, rfl, by simp [tag]⟩
  | bool b =>
    cases b
    · exact ⟨'f', "alse".toList, by unfold dump; rfl, rfl, by simp [tag]⟩
    · exact ⟨'t', "rue".toList, by unfold dump; rfl, rfl, by simp [tag]⟩
  | num n =>
    obtain ⟨c, t, h1, h2⟩ := hN.first n
    exact ⟨c, t, by unfold dump; exact h1, charTag_digit h2, by simp [tag]⟩
  | str s => exact ⟨'"', _, by unfold dump quote; rfl, rfl, by simp [tag]⟩
  | arr l =>
    cases l with
    | nil => exact ⟨'[', _, by unfold dump; rfl, rfl, by simp [tag]⟩
    | cons a l => exact ⟨'[', _, by unfold dump; rfl, rfl, by simp [tag]⟩
  | obj l =>
    cases l with
    | nil => exact ⟨'{', _, by unfold dump; rfl, rfl, by simp [tag]⟩
    | cons a l => exact ⟨'{', _, by unfold dump; rfl, rfl, by simp [tag]⟩

theorem tag_eq (hN : NumText numText) {k : Nat} {j j' : Json N} {r r' : Str}
    (h : dump numText L k j ++ r = dump numText L k j' ++ r') : tag j = tag j' := by
  obtain ⟨c, t, h1, h2, _⟩ := dump_head (L := L) hN k j
  obtain ⟨c', t', h1', h2', _⟩ := dump_head (L := L) hN k j'
  rw [h1, h1', List.cons_append, List.cons_append] at h
  rw [← h2, ← h2', (List.cons.inj h).1]

/-- A value at the beginning of a line is not a closing bracket. -/
theorem nl_dump_ne (hN : NumText numText) (hL : L.OK) {k m : Nat} {j : Json N} {r r' : Str} {c : Char}
    (hc : c = ']' ∨ c = '}') (h : c :: r = L.nl k ++ dump numText L m j ++ r') : False := by
  cases hn : L.nl k with
  | nil =>
    obtain ⟨x, t, h1, h2, h3⟩ := dump_head (L := L) hN m j
    rw [hn, h1, List.nil_append, List.cons_append] at h
    have := (List.cons.inj h).1
    subst this
    have h7 : charTag c = 7 := by rcases hc with rfl | rfl <;> decide
    omega
  | cons x t =>
    rw [hn] at h
    have := (List.cons.inj h).1
    subst this
    rcases hL.nl k c (by rw [hn]; exact List.mem_cons_self) with rfl | rfl <;>
      rcases hc with h | h <;> cases h

theorem nl_not_num (hL : L.OK) (k : Nat) : ∀ c ∈ L.nl k, isNum c = false := by
  intro c hc
  rcases hL.nl k c hc with rfl | rfl <;> decide

/-- Before a comma or a closing bracket there is no comma. -/
theorem nl_ne_comma (hL : L.OK) {k : Nat} {c : Char} {r r' : Str} (hc : c = ']' ∨ c = '}')
    (h : L.nl k ++ c :: r = ',' :: r') : False := by
  cases hn : L.nl k with
  | nil =>
    rw [hn] at h
    rcases hc with rfl | rfl <;> cases h
  | cons x t =>
    rw [hn] at h
    have := (List.cons.inj h).1
    subst this
    rcases hL.nl k ',' (by rw [hn]; exact List.mem_cons_self) with h | h <;> cases h

theorem stop_close (hL : L.OK) (k : Nat) {c : Char} (r : Str) (hc : c = ']' ∨ c = '}') :
    Stop (L.nl k ++ c :: r) := by
  apply stop_append (nl_not_num hL k)
  apply stop_cons
  rcases hc with rfl | rfl <;> decide

theorem stop_elems (hL : L.OK) (k m : Nat) (l : List (Json N)) {c : Char} (r : Str)
    (hc : c = ']' ∨ c = '}') : Stop (dumpElems numText L m l ++ (L.nl k ++ c :: r)) := by
  cases l with
  | nil => unfold dumpElems; exact stop_close hL k r hc
  | cons a l => unfold dumpElems; exact stop_cons (by decide)

theorem stop_pairs (hL : L.OK) (k m : Nat) (l : List (Str × Json N)) {c : Char} (r : Str)
    (hc : c = ']' ∨ c = '}') : Stop (dumpPairs numText L m l ++ (L.nl k ++ c :: r)) := by
  cases l with
  | nil => unfold dumpPairs; exact stop_close hL k r hc
  | cons a l => unfold dumpPairs; exact stop_cons (by decide)

mutual
theorem dump_inj' (hN : NumText numText) (hL : L.OK) (k : Nat) (j j' : Json N) (r r' : Str)
    (hr : Stop r) (hr' : Stop r')
    (h : dump numText L k j ++ r = dump numText L k j' ++ r') : j = j' ∧ r = r' := by
  have ht := tag_eq hN h
  match j with
  | null =>
    cases j' with
    | null => exact ⟨rfl, List.append_cancel_left h⟩
    | bool b => cases b <;> cases ht
    | _ => cases ht
  | bool b =>
    cases j' with
    | bool b' =>
      have : b = b' := by cases b <;> cases b' <;> first | rfl | cases ht
      subst this
      exact ⟨rfl, List.append_cancel_left h⟩
    | _ => cases b <;> cases ht
  | num n =>
    cases j' with
    | num m =>
      unfold dump at h
      obtain ⟨rfl, rfl⟩ := num_inj hN hr hr' h
      exact ⟨rfl, rfl⟩
    | bool b => cases b <;> cases ht
    | _ => cases ht
  | str s =>
    cases j' with
    | str m =>
      unfold dump at h
      obtain ⟨rfl, rfl⟩ := quote_inj h
      exact ⟨rfl, rfl⟩
    | bool b => cases b <;> cases ht
    | _ => cases ht
  | arr [] =>
    cases j' with
    | arr l =>
      cases l with
      | nil => exact ⟨rfl, List.append_cancel_left h⟩
      | cons a l =>
        exfalso
        simp only [dump, List.cons_append, List.nil_append, List.append_assoc, List.cons.injEq, true_and]
          at h
        rw [← List.append_assoc] at h
        exact nl_dump_ne hN hL (Or.inl rfl) h
    | bool b => cases b <;> cases ht
    | _ => cases ht
  | arr (a :: l) =>
    cases j' with
    | arr l' =>
      cases l' with
      | nil =>
        exfalso
        simp only [dump, List.cons_append, List.nil_append, List.append_assoc, List.cons.injEq, true_and]
          at h
        rw [← List.append_assoc] at h
        exact nl_dump_ne hN hL (Or.inl rfl) h.symm
      | cons a' l' =>
        simp only [dump, List.cons_append, List.nil_append, List.append_assoc, List.cons.injEq, true_and]
          at h
        have h1 := List.append_cancel_left h
        obtain ⟨e1, h2⟩ := dump_inj' hN hL (k + 1) a a' _ _
          (stop_elems hL k (k + 1) l r (Or.inl rfl)) (stop_elems hL k (k + 1) l' r' (Or.inl rfl)) h1
        obtain ⟨e2, h3⟩ := dumpElems_inj hN hL k (k + 1) l l' r r' h2
        exact ⟨by rw [e1, e2], h3⟩
    | bool b => cases b <;> cases ht
    | _ => cases ht
  | obj [] =>
    cases j' with
    | obj l =>
      cases l with
      | nil => exact ⟨rfl, List.append_cancel_left h⟩
      | cons a l =>
        exfalso
        obtain ⟨s, v⟩ := a
        simp only [dump, dumpPair, List.cons_append, List.nil_append, List.append_assoc, List.cons.injEq,
          true_and] at h
        have e : quote s = dump numText L 0 (str s) := by unfold dump; rfl
        rw [e, ← List.append_assoc] at h
        exact nl_dump_ne hN hL (Or.inr rfl) h
    | bool b => cases b <;> cases ht
    | _ => cases ht
  | obj (a :: l) =>
    cases j' with
    | obj l' =>
      cases l' with
      | nil =>
        exfalso
        obtain ⟨s, v⟩ := a
        simp only [dump, dumpPair, List.cons_append, List.nil_append, List.append_assoc, List.cons.injEq,
          true_and] at h
        have e : quote s = dump numText L 0 (str s) := by unfold dump; rfl
        rw [e, ← List.append_assoc] at h
        exact nl_dump_ne hN hL (Or.inr rfl) h.symm
      | cons a' l' =>
        simp only [dump, List.cons_append, List.nil_append, List.append_assoc, List.cons.injEq, true_and]
          at h
        have h1 := List.append_cancel_left h
        obtain ⟨e1, h2⟩ := dumpPair_inj hN hL (k + 1) a a' _ _
          (stop_pairs hL k (k + 1) l r (Or.inr rfl)) (stop_pairs hL k (k + 1) l' r' (Or.inr rfl)) h1
        obtain ⟨e2, h3⟩ := dumpPairs_inj hN hL k (k + 1) l l' r r' h2
        exact ⟨by rw [e1, e2], h3⟩
    | bool b => cases b <;> cases ht
    | _ => cases ht
termination_by structural j
theorem dumpElems_inj (hN : NumText numText) (hL : L.OK) (k m : Nat) (l l' : List (Json N)) (r r' : Str)
    (h : dumpElems numText L m l ++ (L.nl k ++ ']' :: r) = dumpElems numText L m l' ++ (L.nl k ++ ']' :: r')) :
    l = l' ∧ r = r' := by
  match l with
  | [] =>
    cases l' with
    | nil =>
      simp only [dumpElems, List.nil_append, List.append_cancel_left_eq, List.cons.injEq, true_and] at h
      exact ⟨rfl, h⟩
    | cons a l' =>
      exfalso
      simp only [dumpElems, List.nil_append, List.cons_append] at h
      exact nl_ne_comma hL (Or.inl rfl) h
  | a :: l =>
    cases l' with
    | nil =>
      exfalso
      simp only [dumpElems, List.nil_append, List.cons_append] at h
      exact nl_ne_comma hL (Or.inl rfl) h.symm
    | cons a' l' =>
      simp only [dumpElems, List.cons_append, List.append_assoc, List.cons.injEq, true_and] at h
      have h1 := List.append_cancel_left h
      obtain ⟨e1, h2⟩ := dump_inj' hN hL m a a' _ _
        (stop_elems hL k m l r (Or.inl rfl)) (stop_elems hL k m l' r' (Or.inl rfl)) h1
      obtain ⟨e2, h3⟩ := dumpElems_inj hN hL k m l l' r r' h2
      exact ⟨by rw [e1, e2], h3⟩
termination_by structural l
theorem dumpPair_inj (hN : NumText numText) (hL : L.OK) (k : Nat) (a a' : Str × Json N) (r r' : Str)
    (hr : Stop r) (hr' : Stop r')
    (h : dumpPair numText L k a ++ r = dumpPair numText L k a' ++ r') : a = a' ∧ r = r' := by
  match a with
  | (s, v) =>
    obtain ⟨s', v'⟩ := a'
    simp only [dumpPair, List.append_assoc] at h
    obtain ⟨rfl, h1⟩ := quote_inj h
    have h2 := List.append_cancel_left h1
    obtain ⟨rfl, h3⟩ := dump_inj' hN hL k v v' r r' hr hr' h2
    exact ⟨rfl, h3⟩
termination_by structural a
theorem dumpPairs_inj (hN : NumText numText) (hL : L.OK) (k m : Nat) (l l' : List (Str × Json N))
    (r r' : Str)
    (h : dumpPairs numText L m l ++ (L.nl k ++ '}' :: r) = dumpPairs numText L m l' ++ (L.nl k ++ '}' :: r')) :
    l = l' ∧ r = r' := by
  match l with
  | [] =>
    cases l' with
    | nil =>
      simp only [dumpPairs, List.nil_append, List.append_cancel_left_eq, List.cons.injEq, true_and] at h
      exact ⟨rfl, h⟩
    | cons a l' =>
      exfalso
      simp only [dumpPairs, List.nil_append, List.cons_append] at h
      exact nl_ne_comma hL (Or.inr rfl) h
  | a :: l =>
    cases l' with
    | nil =>
      exfalso
      simp only [dumpPairs, List.nil_append, List.cons_append] at h
      exact nl_ne_comma hL (Or.inr rfl) h.symm
    | cons a' l' =>
      simp only [dumpPairs, List.cons_append, List.append_assoc, List.cons.injEq, true_and] at h
      have h1 := List.append_cancel_left h
      obtain ⟨e1, h2⟩ := dumpPair_inj hN hL m a a' _ _
        (stop_pairs hL k m l r (Or.inr rfl)) (stop_pairs hL k m l' r' (Or.inr rfl)) h1
      obtain ⟨e2, h3⟩ := dumpPairs_inj hN hL k m l l' r r' h2
      exact ⟨by rw [e1, e2], h3⟩
termination_by structural l
end

/-- Different values have different texts. -/
theorem dump_inj (hN : NumText numText) (hL : L.OK) {j j' : Json N}
    (h : dump numText L 0 j = dump numText L 0 j') : j = j' := by
  have hs : Stop [] := fun c t e => by cases e
  exact (dump_inj' hN hL 0 j j' [] [] hs hs (by rw [h])).1

end

end Json

end Verif
