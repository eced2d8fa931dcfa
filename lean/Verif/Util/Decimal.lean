import Verif.Util.Json
import Mathlib.Data.List.Lex
import Mathlib.Data.Char

/-!
# Decimal numbers

`fmt::format("{}", n)`, `std::to_string`, and reading numbers with `std::stoul` and `std::atol`.
-/

namespace Verif

/-- Digit of a number below ten. -/
def digitChar (n : Nat) : Char := Char.ofNat (48 + n)

/-- Decimal digits of a number, least significant first; `f + 1` is more than the number of digits. -/
def digits : Nat → Nat → Str
  | 0, n => [digitChar (n % 10)]
  | f + 1, n => digitChar (n % 10) :: (if n < 10 then [] else digits f (n / 10))

/-- `fmt::format("{}", n)`, `std::to_string(n)`. -/
def decimal (n : Nat) : Str := (digits n n).reverse

/-- `fmt::format("{:010d}", n)`. -/
def padded (n : Nat) : Str :=
  List.replicate (10 - (decimal n).length) '0' ++ decimal n

/-- White space in the C locale. -/
def isSpace (c : Char) : Bool := c == ' ' || (9 ≤ c.toNat && c.toNat ≤ 13)

/-- Value of leading digits. -/
def leadingDigits (acc : Nat) : Str → Nat
  | [] => acc
  | c :: t => if c.isDigit then leadingDigits (10 * acc + (c.toNat - 48)) t else acc

/-- `std::atol`. -/
def atol (s : Str) : Int :=
  match s.dropWhile isSpace with
  | [] => 0
  | c :: t =>
    if c = '-' then -(leadingDigits 0 t : Int)
    else if c = '+' then leadingDigits 0 t
    else leadingDigits 0 (c :: t)

/-- Digits of an unsigned number: value, or nothing if there is no digit or it is out of range. -/
def stoulDigits (s : Str) : Option Nat :=
  match s with
  | [] => none
  | c :: _ => if c.isDigit && leadingDigits 0 s < 2 ^ 64 then some (leadingDigits 0 s) else none

/-- `std::stoul` (base 10): leading white space and a sign are accepted, a negative number is reduced
modulo `2^64`, anything following the digits is ignored. -/
def stoul (s : Str) : Option Nat :=
  match s.dropWhile isSpace with
  | [] => none
  | c :: t =>
    if c = '-' then (stoulDigits t).map (fun n => (2 ^ 64 - n) % 2 ^ 64)
    else if c = '+' then stoulDigits t
    else stoulDigits (c :: t)

/-! ## Lemmas -/

theorem digitChar_cases : ∀ n, n < 10 → (digitChar n).isDigit = true ∧ (digitChar n).toNat - 48 = n ∧
    isSpace (digitChar n) = false ∧ digitChar n ≠ '-' ∧ digitChar n ≠ '+' := by
  decide

theorem digitChar_inj {a b : Nat} (ha : a < 10) (hb : b < 10) (h : digitChar a = digitChar b) :
    a = b := by
  rw [← (digitChar_cases a ha).2.1, ← (digitChar_cases b hb).2.1, h]

theorem digits_isDigit : ∀ (f n : Nat), ∀ c ∈ digits f n, c.isDigit = true
  | 0, n, c, h => by
    simp only [digits, List.mem_singleton] at h
    rw [h]
    exact (digitChar_cases _ (Nat.mod_lt _ (by decide))).1
  | f + 1, n, c, h => by
    simp only [digits, List.mem_cons] at h
    rcases h with rfl | h
    · exact (digitChar_cases _ (Nat.mod_lt _ (by decide))).1
    · split at h
      · simp at h
      · exact digits_isDigit f _ c h

/-- Value of digits, least significant first. -/
def valueOf : Str → Nat
  | [] => 0
  | c :: t => (c.toNat - 48) + 10 * valueOf t

theorem valueOf_digits : ∀ (f n : Nat), n ≤ f → valueOf (digits f n) = n
  | 0, n, h => by
    have : n = 0 := by omega
    subst this
    rfl
  | f + 1, n, h => by
    simp only [digits, valueOf]
    rw [(digitChar_cases _ (Nat.mod_lt n (by decide))).2.1]
    split
    · rename_i h10
      simp only [valueOf]
      omega
    · rename_i h10
      rw [valueOf_digits f (n / 10) (by omega)]
      omega

theorem leadingDigits_append : ∀ (s : Str), (∀ c ∈ s, c.isDigit = true) → ∀ acc r,
    leadingDigits acc (s ++ r) = leadingDigits (10 ^ s.length * acc + valueOf s.reverse) r
  | [], _, acc, r => by simp [valueOf]
  | c :: t, h, acc, r => by
    have hv : ∀ (a : Str) (d : Char), valueOf (a ++ [d]) = valueOf a + 10 ^ a.length * (d.toNat - 48) := by
      intro a d
      induction a with
      | nil => simp [valueOf]
      | cons x a ih =>
        simp only [List.cons_append, valueOf, ih, List.length_cons, Nat.pow_succ]
        rw [Nat.mul_add, ← Nat.mul_assoc, Nat.mul_comm 10 (10 ^ a.length)]
        omega
    rw [List.cons_append, leadingDigits, if_pos (h c (by simp)),
      leadingDigits_append t (fun d hd => h d (by simp [hd]))]
    congr 1
    rw [List.reverse_cons, hv, List.length_reverse, List.length_cons, Nat.pow_succ, Nat.mul_add,
      ← Nat.mul_assoc]
    omega

/-- Reading a decimal number back. -/
theorem leadingDigits_decimal (n : Nat) (r : Str) (hr : ∀ c t, r = c :: t → c.isDigit = false) :
    leadingDigits 0 (decimal n ++ r) = n := by
  unfold decimal
  rw [leadingDigits_append _ (fun c hc => digits_isDigit n n c (List.mem_reverse.mp hc)),
    List.reverse_reverse, valueOf_digits n n (Nat.le_refl _)]
  simp only [Nat.mul_zero, Nat.zero_add]
  cases r with
  | nil => rfl
  | cons c t =>
    rw [leadingDigits, hr c t rfl]
    simp

theorem decimal_head (n : Nat) : ∃ d t, d < 10 ∧ decimal n = digitChar d :: t := by
  have hne : (digits n n).reverse ≠ [] := by
    cases n <;> simp [digits]
  cases h : (digits n n).reverse with
  | nil => exact absurd h hne
  | cons c t =>
    have : ∀ (f k : Nat), ∀ c ∈ digits f k, ∃ d, d < 10 ∧ c = digitChar d := by
      intro f
      induction f with
      | zero =>
        intro k c hc
        simp only [digits, List.mem_singleton] at hc
        exact ⟨k % 10, Nat.mod_lt _ (by decide), hc⟩
      | succ f ih =>
        intro k c hc
        simp only [digits, List.mem_cons] at hc
        rcases hc with hc | hc
        · exact ⟨k % 10, Nat.mod_lt _ (by decide), hc⟩
        · split at hc
          · simp at hc
          · exact ih _ c hc
    obtain ⟨d, hd, e⟩ := this n n c (List.mem_reverse.mp (by rw [h]; simp))
    exact ⟨d, t, hd, by unfold decimal; rw [h, e]⟩

theorem decimal_isDigit (n : Nat) : ∀ c ∈ decimal n, c.isDigit = true :=
  fun c hc => digits_isDigit n n c (List.mem_reverse.mp hc)

theorem decimal_inj {n m : Nat} (h : decimal n = decimal m) : n = m := by
  have h1 := leadingDigits_decimal n [] (fun c t e => by cases e)
  have h2 := leadingDigits_decimal m [] (fun c t e => by cases e)
  rw [h] at h1
  exact h1.symm.trans h2

theorem stoul_decimal {n : Nat} (hn : n < 2 ^ 64) (r : Str)
    (hr : ∀ c t, r = c :: t → c.isDigit = false) : stoul (decimal n ++ r) = some n := by
  obtain ⟨d, t, hd, e⟩ := decimal_head n
  obtain ⟨h1, _, h3, h4, h5⟩ := digitChar_cases d hd
  have hl := leadingDigits_decimal n r hr
  unfold stoul
  rw [e, List.cons_append] at hl ⊢
  rw [List.dropWhile_cons, h3]
  simp only [Bool.false_eq_true, if_false, h4, h5]
  unfold stoulDigits
  rw [hl]
  simp only [h1, Bool.true_and, decide_eq_true_eq, if_pos hn]

theorem valueOf_append (b : Str) : ∀ a : Str,
    valueOf (a ++ b) = valueOf a + 10 ^ a.length * valueOf b
  | [] => by simp [valueOf]
  | c :: a => by
    rw [List.cons_append, valueOf, valueOf, valueOf_append b a, List.length_cons, Nat.pow_succ,
      Nat.mul_add, ← Nat.mul_assoc, Nat.mul_comm 10 (10 ^ a.length)]
    omega

theorem digit_bound {c : Char} (h : c.isDigit = true) : 48 ≤ c.toNat ∧ c.toNat ≤ 57 := by
  simp only [Char.isDigit, Bool.and_eq_true, decide_eq_true_eq] at h
  exact h

theorem valueOf_lt : ∀ s : Str, (∀ c ∈ s, c.isDigit = true) → valueOf s < 10 ^ s.length
  | [], _ => by simp [valueOf]
  | c :: t, h => by
    have h1 := digit_bound (h c (by simp))
    have h2 := valueOf_lt t (fun d hd => h d (by simp [hd]))
    rw [valueOf, List.length_cons, Nat.pow_succ]
    omega

/-- Digit strings of the same length are ordered as the numbers they denote. -/
theorem digits_lt : ∀ s t : Str, s.length = t.length → (∀ c ∈ s, c.isDigit = true) →
    (∀ c ∈ t, c.isDigit = true) → valueOf s.reverse < valueOf t.reverse → s < t
  | [], [], _, _, _, h => by simp [valueOf] at h
  | [], _ :: _, hl, _, _, _ => by simp at hl
  | _ :: _, [], hl, _, _, _ => by simp at hl
  | c :: s, d :: t, hl, hs, ht, h => by
    have hl' : s.length = t.length := by simpa using hl
    have hc := digit_bound (hs c (by simp))
    have hd := digit_bound (ht d (by simp))
    have hs' : ∀ c ∈ s, c.isDigit = true := fun x hx => hs x (by simp [hx])
    have ht' : ∀ c ∈ t, c.isDigit = true := fun x hx => ht x (by simp [hx])
    have bs := valueOf_lt s.reverse (fun x hx => hs' x (by simpa using hx))
    have bt := valueOf_lt t.reverse (fun x hx => ht' x (by simpa using hx))
    rw [List.length_reverse] at bs bt
    rw [List.reverse_cons, List.reverse_cons, valueOf_append, valueOf_append, List.length_reverse,
      List.length_reverse] at h
    simp only [valueOf, Nat.mul_zero, Nat.add_zero] at h
    rw [hl'] at h bs
    rcases Nat.lt_trichotomy c.toNat d.toNat with hlt | heq | hgt
    · exact List.cons_lt_cons_iff.mpr (Or.inl hlt)
    · have hcd : c = d := Char.toNat_inj.mp heq
      subst hcd
      exact List.cons_lt_cons_iff.mpr (Or.inr ⟨rfl, digits_lt s t hl' hs' ht' (by omega)⟩)
    · exfalso
      have h1 : 10 ^ t.length * (d.toNat - 48) + 10 ^ t.length ≤ 10 ^ t.length * (c.toNat - 48) := by
        rw [← Nat.mul_succ]
        exact Nat.mul_le_mul_left _ (by omega)
      omega

theorem digits_length : ∀ (f n k : Nat), n < 10 ^ (k + 1) → (digits f n).length ≤ k + 1
  | 0, n, k, _ => by simp [digits]
  | f + 1, n, k, h => by
    simp only [digits, List.length_cons]
    split
    · simp
    · rename_i h10
      cases k with
      | zero => omega
      | succ k =>
        have := digits_length f (n / 10) k (by
          rw [Nat.pow_succ] at h
          exact Nat.div_lt_of_lt_mul (by omega))
        omega

theorem padded_isDigit (n : Nat) : ∀ c ∈ padded n, c.isDigit = true := by
  intro c hc
  unfold padded at hc
  rcases List.mem_append.mp hc with h | h
  · rw [(List.mem_replicate.mp h).2]; decide
  · exact decimal_isDigit n c h

theorem padded_length {n : Nat} (h : n < 10 ^ 10) : (padded n).length = 10 := by
  have := digits_length n n 9 h
  simp only [padded, decimal, List.length_append, List.length_replicate, List.length_reverse]
  omega

theorem valueOf_padded (n : Nat) : valueOf (padded n).reverse = n := by
  have hz : ∀ k, valueOf (List.replicate k '0') = 0 := by
    intro k
    induction k with
    | zero => rfl
    | succ k ih =>
      rw [List.replicate_succ, valueOf, ih]
      decide
  simp only [padded, decimal, List.reverse_append, List.reverse_reverse, List.reverse_replicate]
  rw [valueOf_append, valueOf_digits n n (Nat.le_refl _), hz]
  omega

/-- Padded numbers are ordered as strings. -/
theorem padded_lt {n m : Nat} (h : n < m) (hm : m < 10 ^ 10) : padded n < padded m := by
  refine digits_lt _ _ ?_ (padded_isDigit n) (padded_isDigit m) ?_
  · rw [padded_length (by omega), padded_length hm]
  · rw [valueOf_padded, valueOf_padded]
    exact h

end Verif
