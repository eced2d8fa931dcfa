import Verif.InstallCas.Model
import Verif.Digest.Props

/-!
# Object identifiers accepted by `install-cas` (C110)
-/

namespace Verif.InstallCas

open Verif.Dig (HashType ObjectType ObjectInfo Digest getline createDigest create validInput isHexDigit isHexString toUnsigned
  getline_prefix hex_ne_colon digit_ne_colon split_delim)
open Verif.Roots (Out)

/-! ## What is claimed -/

/-- A hash for the hash function in use. -/
def GoodHash (t : HashType) (h : Str) : Prop := h.length = t.length ∧ ∀ c ∈ h, isHexDigit c = true

/-- With or without square brackets. -/
def wrap (b : Bool) (s : Str) : Str := if b then '[' :: s ++ [']'] else s

/-- The object of a given hash, size, and type. -/
def given (t : HashType) (h : Str) (size : Nat) (ty : ObjectType) : ObjectInfo :=
  ⟨⟨h, t, t.native && ty.isTree, size⟩, ty, false⟩

/-- A string that does not start, after white space, with a number. -/
def NoNumber (z : Str) : Prop := ∀ c r, z.dropWhile isSpace = c :: r → c.isDigit = false ∧ c ≠ '-' ∧ c ≠ '+'

/-! ## Lemmas -/

theorem line_none {delim : Char} {s : Str} (h : delim ∉ s) : line delim s = (s, none) := by
  unfold line getline
  cases s with
  | nil => rfl
  | cons c s => simp only [if_neg h, Option.getD_some]

theorem line_some {delim : Char} {a : Str} (h : delim ∉ a) (r : Str) : line delim (a ++ delim :: r) = (a, some r) := by
  unfold line
  rw [getline_prefix (delim := delim) (fun c hc e => h (by rwa [e] at hc))]
  rfl

theorem notMem_takeWhile (delim : Char) (s : Str) : delim ∉ s.takeWhile (fun c => c != delim) := by
  induction s with
  | nil => simp
  | cons c s ih =>
    rw [List.takeWhile_cons]
    split
    · rename_i h
      have : c ≠ delim := by simpa using h
      simp [ih, Ne.symm this]
    · simp

theorem line_first {delim c : Char} (h : c ≠ delim) (r : Str) : (line delim (c :: r)).1.head? = some c := by
  by_cases hm : delim ∈ r
  · have e : c :: r = (c :: r.takeWhile (fun c => c != delim)) ++ delim :: (r.dropWhile (fun c => c != delim)).drop 1 := by
      rw [List.cons_append, ← split_delim hm]
    rw [e, line_some]
    · rfl
    · intro h'
      rcases List.mem_cons.1 h' with h' | h'
      · exact h h'.symm
      · exact notMem_takeWhile delim r h'
  · rw [line_none (by simp [hm, Ne.symm h])]
    rfl

theorem GoodHash.noColon {t : HashType} {h : Str} (g : GoodHash t h) : ':' ∉ h := fun hm => hex_ne_colon (g.2 _ hm) rfl

theorem GoodHash.create {t : HashType} {h : Str} (g : GoodHash t h) (size : Nat) (tree : Bool) :
    createDigest t h size tree = some ⟨h, t, t.native && tree, size⟩ := by
  unfold createDigest Dig.create validInput
  have h2 : isHexString h = true := List.all_eq_true.2 g.2
  simp only [g.1, h2, beq_self_eq_true, Bool.and_true, HashType.treeAllowed]
  rw [if_pos]
  cases t.native <;> simp

theorem skip_hash {t : HashType} {h : Str} (g : GoodHash t h) (r : Str) : skipBracket (h ++ r) = h ++ r := by
  cases h with
  | nil =>
    have := g.1
    cases t <;> cases this
  | cons c h =>
    rw [List.cons_append, skipBracket, if_neg]
    rintro rfl
    exact absurd (g.2 '[' (by simp)) (by decide)

theorem atol_decimal (n : Nat) (r : Str) (hr : ∀ c t, r = c :: t → c.isDigit = false) : atol (decimal n ++ r) = n := by
  obtain ⟨d, t, hd, e⟩ := decimal_head n
  obtain ⟨_, _, h3, h4, h5⟩ := digitChar_cases d hd
  have hl := leadingDigits_decimal n r hr
  unfold atol
  rw [e, List.cons_append] at hl ⊢
  rw [List.dropWhile_cons, h3]
  simp only [Bool.false_eq_true, if_false, h4, h5, hl]

theorem sizeOf_decimal {n : Nat} (hn : n < 2 ^ 63) (r : Str) (hr : ∀ c t, r = c :: t → c.isDigit = false) :
    sizeOf (decimal n ++ r) = .ok n := by
  obtain ⟨d, t, _, e⟩ := decimal_head n
  unfold sizeOf
  rw [if_neg (by rw [e]; simp), atol_decimal n r hr, if_pos ⟨by omega, by omega⟩]
  unfold toUnsigned
  congr 1
  rw [Int.emod_eq_of_lt (by omega) (by omega)]
  rfl

theorem sizeOf_noNumber {z : Str} (h : NoNumber z) : sizeOf z = .ok 0 := by
  unfold sizeOf
  split
  · rfl
  · have : atol z = 0 := by
      unfold atol
      cases hz : z.dropWhile isSpace with
      | nil => rfl
      | cons c r =>
        obtain ⟨h1, h2, h3⟩ := h c r hz
        simp only [if_neg h2, if_neg h3, leadingDigits, h1]
        rfl
    rw [this]
    rfl

/-- Three fields, with or without brackets. -/
theorem fields_three {t : HashType} {h z y : Str} (g : GoodHash t h) (hz : ':' ∉ z) (b : Bool) :
    fields (wrap b (h ++ ':' :: z ++ ':' :: y)) = (h, z, (line ']' (y ++ if b then [']'] else [])).1) := by
  have e : skipBracket (wrap b (h ++ ':' :: z ++ ':' :: y)) = h ++ ':' :: (z ++ ':' :: (y ++ if b then [']'] else [])) := by
    unfold wrap
    cases b with
    | true => simp [skipBracket]
    | false =>
      rw [if_neg (by simp), List.append_assoc, skip_hash g]
      simp
  unfold fields
  rw [e, line_some g.noColon]
  dsimp only
  rw [line_some hz]

/-- Two fields, with or without brackets. -/
theorem fields_two {t : HashType} {h z : Str} (g : GoodHash t h) (hz : ':' ∉ z) (b : Bool) :
    fields (wrap b (h ++ ':' :: z)) = (h, z ++ (if b then [']'] else []), ['f']) := by
  have e : skipBracket (wrap b (h ++ ':' :: z)) = h ++ ':' :: (z ++ if b then [']'] else []) := by
    unfold wrap
    cases b with
    | true => simp [skipBracket]
    | false =>
      rw [if_neg (by simp), skip_hash g]
      simp
  unfold fields
  rw [e, line_some g.noColon]
  dsimp only
  rw [line_none]
  cases b <;> simp [hz]

/-! ## C110 -/

/-- **C110.** An object identifier may be given with or without brackets; of the type, only the first letter is
significant. -/
theorem C110_id {t : HashType} {h : Str} (g : GoodHash t h) {size : Nat} (hs : size < 2 ^ 63) (ty : ObjectType) (y : Str)
    (b : Bool) : liberal t (wrap b (h ++ ':' :: decimal size ++ ':' :: ty.toChar :: y)) = .ok (given t h size ty) := by
  have hz : ':' ∉ decimal size := fun hm => digit_ne_colon (decimal_isDigit size _ hm) rfl
  have hf := fields_three (y := ty.toChar :: y) g hz b
  have e4 := sizeOf_decimal hs [] (fun c t e => by cases e)
  rw [List.append_nil] at e4
  unfold liberal
  rw [hf]
  dsimp only
  rw [e4, List.cons_append, line_first (by cases ty <;> decide), Option.getD_some, Dig.ofChar_toChar]
  dsimp only [Out.bind]
  rw [g.create]
  rfl

/-- **C110.** If the size is missing or is no number, then it is zero; if the type is missing, or is none of the known
ones, then it is that of a file. -/
theorem C110_defaults {t : HashType} {h : Str} (g : GoodHash t h) {size : Nat} (hs : size < 2 ^ 63) (b : Bool) :
    -- neither size nor type
    liberal t h = .ok (given t h 0 .file) ∧
    -- no type
    liberal t (wrap b (h ++ ':' :: decimal size)) = .ok (given t h size .file) ∧
    -- no size
    (∀ (ty : ObjectType) (z y : Str), ':' ∉ z → NoNumber z →
      liberal t (wrap b (h ++ ':' :: z ++ ':' :: ty.toChar :: y)) = .ok (given t h 0 ty)) ∧
    -- empty or unknown type
    ∀ y : Str, (∀ c r, y = c :: r → c ≠ 'x' ∧ c ≠ 't' ∧ c ≠ 'l') →
      liberal t (wrap b (h ++ ':' :: decimal size ++ ':' :: y)) = .ok (given t h size .file) := by
  have hz : ':' ∉ decimal size := fun hm => digit_ne_colon (decimal_isDigit size _ hm) rfl
  have e4 := sizeOf_decimal hs [] (fun c t e => by cases e)
  rw [List.append_nil] at e4
  refine ⟨?_, ?_, fun ty z y hz hn => ?_, fun y hy => ?_⟩
  · have e : fields h = (h, [], ['f']) := by
      unfold fields
      have := skip_hash g []
      rw [List.append_nil] at this
      rw [this, line_none g.noColon]
    unfold liberal
    rw [e]
    show (match createDigest t h 0 _ with | none => _ | some d => _) = _
    rw [g.create]
    rfl
  · unfold liberal
    rw [fields_two g hz b]
    dsimp only
    rw [sizeOf_decimal hs _ (by cases b <;> simp)]
    dsimp only [Out.bind]
    rw [g.create]
    rfl
  · have hf := fields_three (y := ty.toChar :: y) g hz b
    unfold liberal
    rw [hf]
    dsimp only
    rw [sizeOf_noNumber hn, List.cons_append, line_first (by cases ty <;> decide), Option.getD_some, Dig.ofChar_toChar]
    dsimp only [Out.bind]
    rw [g.create]
    rfl
  · have hf := fields_three (y := y) g hz b
    have ht : ObjectType.ofChar (((line ']' (y ++ if b then [']'] else [])).1).head?.getD (Char.ofNat 0)) = .file := by
      cases y with
      | nil => cases b <;> decide
      | cons c r =>
        obtain ⟨h1, h2, h3⟩ := hy c r rfl
        by_cases hc : c = ']'
        · subst hc
          rw [List.cons_append, ← List.nil_append (']' :: _), line_some (by simp)]
          rfl
        · rw [List.cons_append, line_first hc, Option.getD_some]
          unfold ObjectType.ofChar
          rw [if_neg h1, if_neg h2, if_neg h3]
    unfold liberal
    rw [hf]
    dsimp only
    rw [e4, ht]
    dsimp only [Out.bind]
    rw [g.create]
    rfl

/-- **C110.** What is printed for an object is accepted as its identifier. -/
theorem C110_printed (i : ObjectInfo) (hg : GoodHash i.digest.type i.digest.hash) (hs : i.digest.size < 2 ^ 63)
    (ht : i.digest.tree = (i.digest.type.native && i.type.isTree)) :
    liberal i.digest.type (i.toString false) = .ok { i with failed := false } ∧
    liberal i.digest.type (i.toString true) = .ok ⟨{ i.digest with size := 0 }, i.type, false⟩ := by
  obtain ⟨⟨h, t, tr, size⟩, ty, fl⟩ := i
  dsimp only at hg hs ht
  subst ht
  have key : ∀ z : Str, ':' ∉ z → ∀ n, sizeOf z = .ok n → ∀ r : Str,
      liberal t ('[' :: h ++ ':' :: z ++ ':' :: ty.toChar :: ']' :: r) = .ok (given t h n ty) := by
    intro z hz n hn r
    have e : fields ('[' :: h ++ ':' :: z ++ ':' :: ty.toChar :: ']' :: r) = (h, z, [ty.toChar]) := by
      unfold fields
      have : skipBracket ('[' :: h ++ ':' :: z ++ ':' :: ty.toChar :: ']' :: r) =
          h ++ ':' :: (z ++ ':' :: ([ty.toChar] ++ ']' :: r)) := by simp [skipBracket]
      rw [this, line_some hg.noColon]
      dsimp only
      rw [line_some hz]
      dsimp only
      rw [line_some (by cases ty <;> decide)]
    unfold liberal
    rw [e]
    dsimp only
    rw [hn, List.head?_cons, Option.getD_some, Dig.ofChar_toChar]
    dsimp only [Out.bind]
    rw [hg.create]
    rfl
  have e4 := sizeOf_decimal hs [] (fun c t e => by cases e)
  rw [List.append_nil] at e4
  refine ⟨?_, ?_⟩
  · exact key (decimal size) (fun hm => digit_ne_colon (decimal_isDigit size _ hm) rfl) size e4 _
  · exact key [] (by simp) 0 rfl _

/-- **C110.** Nothing is accepted but a hash, possibly behind an opening bracket, and possibly followed by a colon and
further text; the object has that hash. -/
theorem C110_only {t : HashType} {s : Str} {o : ObjectInfo} (h : liberal t s = .ok o) :
    GoodHash t o.digest.hash ∧ o.digest.type = t ∧ o.digest.tree = (t.native && o.type.isTree) ∧
      ∃ open' rest, s = open' ++ o.digest.hash ++ rest ∧ (open' = [] ∨ open' = ['[']) ∧
        (rest = [] ∨ ∃ r, rest = ':' :: r) := by
  unfold liberal at h
  generalize hsz : sizeOf (fields s).2.1 = q at h
  cases q with
  | error => cases h
  | ub => cases h
  | ok size =>
    dsimp only [Out.bind] at h
    generalize ObjectType.ofChar ((fields s).2.2.head?.getD (Char.ofNat 0)) = ty at h
    unfold createDigest Dig.create at h
    split at h
    · cases h
    · rename_i d hd
      split at hd
      · rename_i hv
        cases hd
        cases h
        unfold validInput at hv
        simp only [Bool.and_eq_true, beq_iff_eq] at hv
        obtain ⟨⟨hv1, hv2⟩, hv3⟩ := hv
        refine ⟨⟨hv2, List.all_eq_true.1 hv3⟩, rfl, rfl, ?_⟩
        dsimp only
        obtain ⟨o, ho, hb⟩ : ∃ o, s = o ++ skipBracket s ∧ (o = [] ∨ o = ['[']) := by
          cases s with
          | nil => exact ⟨[], rfl, .inl rfl⟩
          | cons c s =>
            by_cases hc : c = '['
            · exact ⟨['['], by rw [skipBracket, if_pos hc, hc]; rfl, .inr rfl⟩
            · exact ⟨[], by rw [skipBracket, if_neg hc]; rfl, .inl rfl⟩
        have hl : ∃ rest, skipBracket s = (fields s).1 ++ rest ∧ (rest = [] ∨ ∃ r, rest = ':' :: r) := by
          by_cases hm : ':' ∈ skipBracket s
          · have e := split_delim hm
            have hn := notMem_takeWhile ':' (skipBracket s)
            refine ⟨_, ?_, .inr ⟨((skipBracket s).dropWhile (fun c => c != ':')).drop 1, rfl⟩⟩
            have hf : (fields s).1 = (skipBracket s).takeWhile (fun c => c != ':') := by
              have hl : line ':' (skipBracket s) = ((skipBracket s).takeWhile (fun c => c != ':'),
                  some (((skipBracket s).dropWhile (fun c => c != ':')).drop 1)) := by
                conv_lhs => rw [e]
                exact line_some hn _
              unfold fields
              rw [hl]
              dsimp only
              split <;> rfl
            rw [hf]
            exact e
          · refine ⟨[], ?_, .inl rfl⟩
            unfold fields
            rw [line_none hm, List.append_nil]
        obtain ⟨rest, h1, h2⟩ := hl
        exact ⟨o, rest, by rw [List.append_assoc, ← h1]; exact ho, hb, h2⟩
      · cases hd

/-- **C110 violated.** A hash in brackets, without size and type, is not accepted, although brackets are optional, and
size and type may be missing. -/
theorem C110_bracket_violation {t : HashType} {h : Str} (g : GoodHash t h) : liberal t (wrap true h) = .error := by
  have e : skipBracket (wrap true h) = h ++ [']'] := by simp [wrap, skipBracket]
  have hf : fields (wrap true h) = (h ++ [']'], [], ['f']) := by
    unfold fields
    rw [e, line_none (by simp [g.noColon])]
  unfold liberal
  rw [hf]
  dsimp only
  rw [show sizeOf [] = .ok 0 from rfl]
  dsimp only [Out.bind]
  unfold createDigest Dig.create validInput
  rw [if_neg (by simp [g.1])]

/-- **C110 violated.** For a size that is too big, the behavior is undefined, although sizes are ignored in general. -/
theorem C110_size_violation {t : HashType} {h : Str} (g : GoodHash t h) {size : Nat} (hs : 2 ^ 63 ≤ size) (b : Bool) (y : Str) :
    liberal t (wrap b (h ++ ':' :: decimal size ++ ':' :: y)) = .ub := by
  have hz : ':' ∉ decimal size := fun hm => digit_ne_colon (decimal_isDigit size _ hm) rfl
  obtain ⟨d, r, _, e⟩ := decimal_head size
  have ha := atol_decimal size [] (fun c t e => by cases e)
  rw [List.append_nil] at ha
  have e4 : sizeOf (decimal size) = .ub := by
    unfold sizeOf
    rw [if_neg (by rw [e]; simp), ha, if_neg (by omega)]
  unfold liberal
  rw [fields_three g hz b]
  dsimp only
  rw [e4]
  rfl

end Verif.InstallCas
