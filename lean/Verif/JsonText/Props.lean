import Verif.JsonText.Model

/-!
# Texts of JSON values shown to the user: properties

C118.
-/

namespace Verif

namespace JsonText

open Json

variable {N : Type} {numText : N → Str}

/-! ## White space of JSON texts -/

/-- Where a reader of a JSON text is: between the tokens (or in a number or name), in a string, or after a
backslash in a string. -/
inductive Mode where
  | out
  | inside
  | escaped

/-- White space of JSON. -/
def IsSpace (c : Char) : Prop := c = ' ' ∨ c = '\n' ∨ c = '\t' ∨ c = '\r'

instance (c : Char) : Decidable (IsSpace c) := by unfold IsSpace; infer_instance

/-- Removes the white space of a JSON text that is not part of a string. By the grammar of JSON, this does
not change the value of the text. -/
def squeeze : Mode → Str → Str
  | _, [] => []
  | .out, c :: r =>
    if IsSpace c then squeeze .out r
    else if c = '"' then c :: squeeze .inside r
    else c :: squeeze .out r
  | .inside, c :: r =>
    if c = '\\' then c :: squeeze .escaped r
    else if c = '"' then c :: squeeze .out r
    else c :: squeeze .inside r
  | .escaped, c :: r => c :: squeeze .inside r

theorem squeeze_space {c : Char} (h : IsSpace c) (r : Str) :
    squeeze .out (c :: r) = squeeze .out r := by
  rw [squeeze, if_pos h]

theorem squeeze_spaces {s : Str} (h : ∀ c ∈ s, IsSpace c) (r : Str) :
    squeeze .out (s ++ r) = squeeze .out r := by
  induction s with
  | nil => rfl
  | cons c s ih =>
    rw [List.cons_append, squeeze_space (h c (by simp))]
    exact ih fun x hx => h x (by simp [hx])

theorem squeeze_char {c : Char} (h : ¬ IsSpace c) (hq : c ≠ '"') (r : Str) :
    squeeze .out (c :: r) = c :: squeeze .out r := by
  rw [squeeze, if_neg h, if_neg hq]

theorem squeeze_chars {s : Str} (h : ∀ c ∈ s, ¬ IsSpace c ∧ c ≠ '"') (r : Str) :
    squeeze .out (s ++ r) = s ++ squeeze .out r := by
  induction s with
  | nil => rfl
  | cons c s ih =>
    rw [List.cons_append, squeeze_char (h c (by simp)).1 (h c (by simp)).2,
      ih fun x hx => h x (by simp [hx])]
    rfl

theorem hexDigit_plain : ∀ n, n < 16 → hexDigit n ≠ '\\' ∧ hexDigit n ≠ '"' := by decide

theorem squeeze_plain {c : Char} (h : c ≠ '\\') (hq : c ≠ '"') (r : Str) :
    squeeze .inside (c :: r) = c :: squeeze .inside r := by
  rw [squeeze, if_neg h, if_neg hq]

theorem squeeze_esc (c : Char) (r : Str) :
    squeeze .inside (esc c ++ r) = esc c ++ squeeze .inside r := by
  rcases esc_cases c with ⟨x, e, _⟩ | ⟨e, hc⟩ | ⟨e, h1, h2⟩
  · rw [e]; simp [squeeze]
  · rw [e]
    have a := hexDigit_plain (c.toNat / 16) (by omega)
    have b := hexDigit_plain (c.toNat % 16) (by omega)
    simp only [List.cons_append, List.nil_append]
    rw [squeeze, if_pos rfl, squeeze, squeeze_plain (by decide) (by decide),
      squeeze_plain (by decide) (by decide), squeeze_plain a.1 a.2, squeeze_plain b.1 b.2]
  · rw [e]
    exact squeeze_plain h2 h1 r

theorem squeeze_escs (s r : Str) :
    squeeze .inside (s.flatMap esc ++ r) = s.flatMap esc ++ squeeze .inside r := by
  induction s with
  | nil => rfl
  | cons c s ih =>
    rw [List.flatMap_cons, List.append_assoc, squeeze_esc, ih, List.append_assoc]

theorem squeeze_quote (s r : Str) :
    squeeze .out (quote s ++ r) = quote s ++ squeeze .out r := by
  unfold quote
  simp only [List.cons_append, List.append_assoc, List.nil_append]
  rw [squeeze, if_neg (by decide), if_pos rfl, squeeze_escs, squeeze, if_neg (by decide), if_pos rfl]

theorem squeeze_num (hN : NumText numText) (m : N) (r : Str) :
    squeeze .out (numText m ++ r) = numText m ++ squeeze .out r := by
  refine squeeze_chars (fun c hc => ?_) r
  have h := hN.chars m c hc
  refine ⟨?_, ?_⟩
  · rintro (e | e | e | e) <;> (subst e; exact absurd h (by decide))
  · intro e; subst e; exact absurd h (by decide)

theorem squeeze_word {s : Str} (h : ∀ c ∈ s, ¬ IsSpace c ∧ c ≠ '"') (r : Str) :
    squeeze .out (s ++ r) = s ++ squeeze .out r := squeeze_chars h r

theorem squeeze_bool (b : Bool) (r : Str) :
    squeeze .out ((if b then "true".toList else "false".toList) ++ r)
      = (if b then "true".toList else "false".toList) ++ squeeze .out r := by
  cases b <;> exact squeeze_chars (by decide) r

theorem nl_compact (k : Nat) : compact.nl k = [] := rfl

mutual
/-- The text in one line has no white space to be removed, and is the same at all levels. -/
theorem squeeze_dump (hN : NumText numText) (k m : Nat) : ∀ (j : Json N) (r : Str),
    squeeze .out (dump numText compact k j ++ r) = dump numText compact m j ++ squeeze .out r
  | null, r => by
    rw [dump, dump]; exact squeeze_chars (by decide) r
  | .bool b, r => by
    rw [dump, dump]; exact squeeze_bool b r
  | num n, r => by
    rw [dump, dump]; exact squeeze_num hN n r
  | str s, r => by
    rw [dump, dump]; exact squeeze_quote s r
  | arr [], r => by
    rw [dump, dump]; exact squeeze_chars (by decide) r
  | arr (a :: l), r => by
    rw [dump, dump]
    simp only [nl_compact, List.nil_append, List.append_nil, List.cons_append, List.append_assoc]
    rw [squeeze_char (by decide) (by decide), squeeze_dump hN (k + 1) (m + 1) a,
      squeeze_dumpElems hN (k + 1) (m + 1) l, squeeze_char (by decide) (by decide)]
  | obj [], r => by
    rw [dump, dump]; exact squeeze_chars (by decide) r
  | obj (a :: l), r => by
    rw [dump, dump]
    simp only [nl_compact, List.nil_append, List.append_nil, List.cons_append, List.append_assoc]
    rw [squeeze_char (by decide) (by decide), squeeze_dumpPair hN (k + 1) (m + 1) a,
      squeeze_dumpPairs hN (k + 1) (m + 1) l, squeeze_char (by decide) (by decide)]
theorem squeeze_dumpElems (hN : NumText numText) (k m : Nat) : ∀ (l : List (Json N)) (r : Str),
    squeeze .out (dumpElems numText compact k l ++ r)
      = dumpElems numText compact m l ++ squeeze .out r
  | [], r => by rw [dumpElems, dumpElems]; rfl
  | a :: l, r => by
    rw [dumpElems, dumpElems]
    simp only [nl_compact, List.nil_append, List.cons_append, List.append_assoc]
    rw [squeeze_char (by decide) (by decide), squeeze_dump hN k m a, squeeze_dumpElems hN k m l]
theorem squeeze_dumpPair (hN : NumText numText) (k m : Nat) : ∀ (a : Str × Json N) (r : Str),
    squeeze .out (dumpPair numText compact k a ++ r)
      = dumpPair numText compact m a ++ squeeze .out r
  | (s, v), r => by
    rw [dumpPair, dumpPair]
    simp only [compact, List.nil_append, List.cons_append, List.append_assoc]
    rw [squeeze_quote, squeeze_char (by decide) (by decide)]
    exact congrArg (fun x => quote s ++ ':' :: x) (squeeze_dump hN k m v r)
theorem squeeze_dumpPairs (hN : NumText numText) (k m : Nat) :
    ∀ (l : List (Str × Json N)) (r : Str),
    squeeze .out (dumpPairs numText compact k l ++ r)
      = dumpPairs numText compact m l ++ squeeze .out r
  | [], r => by rw [dumpPairs, dumpPairs]; rfl
  | a :: l, r => by
    rw [dumpPairs, dumpPairs]
    simp only [nl_compact, List.nil_append, List.cons_append, List.append_assoc]
    rw [squeeze_char (by decide) (by decide), squeeze_dumpPair hN k m a, squeeze_dumpPairs hN k m l]
end

/-! ## Indented texts -/

/-- Elements of an array without brackets. -/
def elems (numText : N → Str) (k : Nat) : List (Json N) → Str
  | [] => []
  | a :: l => dump numText compact k a ++ dumpElems numText compact k l

/-- Keys and values of an object without brackets. -/
def pairs (numText : N → Str) (k : Nat) : List (Str × Json N) → Str
  | [] => []
  | a :: l => dumpPair numText compact k a ++ dumpPairs numText compact k l

theorem sep_elems (k : Nat) (l : List (Json N)) :
    sep l ++ elems numText k l = dumpElems numText compact k l := by
  cases l with
  | nil => rfl
  | cons a l => rw [dumpElems, nl_compact]; rfl

theorem sep_pairs (k : Nat) (l : List (Str × Json N)) :
    sep l ++ pairs numText k l = dumpPairs numText compact k l := by
  cases l with
  | nil => rfl
  | cons a l => rw [dumpPairs, nl_compact]; rfl

theorem dump_arr (k : Nat) (l : List (Json N)) :
    dump numText compact k (arr l) = '[' :: (elems numText (k + 1) l ++ [']']) := by
  cases l with
  | nil => rw [dump]; rfl
  | cons a l => rw [dump]; simp [nl_compact, elems]

theorem dump_obj (k : Nat) (l : List (Str × Json N)) :
    dump numText compact k (obj l) = '{' :: (pairs numText (k + 1) l ++ ['}']) := by
  cases l with
  | nil => rw [dump]; rfl
  | cons a l => rw [dump]; simp [nl_compact, pairs]

theorem squeeze_pad (n d : Nat) (r : Str) : squeeze .out (pad n d ++ r) = squeeze .out r := by
  refine squeeze_spaces (fun c hc => ?_) r
  unfold pad at hc
  obtain ⟨s, hs, hc⟩ := List.mem_flatten.mp hc
  rw [(List.mem_replicate.mp hs).2] at hc
  exact Or.inl (List.mem_replicate.mp hc).2

theorem squeeze_sep {α : Type} (l : List α) (r : Str) :
    squeeze .out (sep l ++ r) = sep l ++ squeeze .out r := by
  refine squeeze_chars ?_ r
  cases l with
  | nil => intro c hc; cases hc
  | cons a l =>
    intro c hc
    rw [List.mem_singleton.mp hc]
    decide

theorem squeeze_nl (r : Str) : squeeze .out ('\n' :: r) = squeeze .out r :=
  squeeze_space (Or.inr (Or.inl rfl)) r

mutual
theorem squeeze_lists (hN : NumText numText) (n till d m : Nat) : ∀ (j : Json N) (r : Str),
    squeeze .out (lists numText n till d j ++ r) = dump numText compact m j ++ squeeze .out r
  | null, r => by rw [lists]; exact squeeze_dump hN 0 m _ r
  | .bool b, r => by rw [lists]; exact squeeze_dump hN 0 m _ r
  | num x, r => by rw [lists]; exact squeeze_dump hN 0 m _ r
  | str s, r => by rw [lists]; exact squeeze_dump hN 0 m _ r
  | arr l, r => by
    rw [lists]
    split
    · rw [dump_arr]
      simp only [List.cons_append, List.append_assoc, List.nil_append]
      rw [squeeze_char (by decide) (by decide), squeeze_nl,
        squeeze_listsElems hN n till (d + 1) (m + 1) l, squeeze_pad,
        squeeze_char (by decide) (by decide)]
    · exact squeeze_dump hN 0 m _ r
  | obj l, r => by
    rw [lists, dump_obj]
    simp only [List.cons_append, List.append_assoc, List.nil_append]
    rw [squeeze_char (by decide) (by decide), squeeze_nl,
      squeeze_listsPairs hN n till (d + 1) (m + 1) l, squeeze_pad,
      squeeze_char (by decide) (by decide)]
theorem squeeze_listsPair (hN : NumText numText) (n till d m : Nat) :
    ∀ (a : Str × Json N) (r : Str),
    squeeze .out (listsPair numText n till d a ++ r)
      = dumpPair numText compact m a ++ squeeze .out r
  | (k, v), r => by
    rw [listsPair, dumpPair]
    simp only [compact, List.cons_append, List.append_assoc, List.nil_append]
    rw [squeeze_quote, squeeze_char (by decide) (by decide), squeeze_space (Or.inl rfl)]
    exact congrArg (fun x => quote k ++ ':' :: x) (squeeze_lists hN n till d m v r)
theorem squeeze_listsPairs (hN : NumText numText) (n till d m : Nat) :
    ∀ (l : List (Str × Json N)) (r : Str),
    squeeze .out (listsPairs numText n till d l ++ r) = pairs numText m l ++ squeeze .out r
  | [], r => by rw [listsPairs]; rfl
  | a :: l, r => by
    rw [listsPairs, pairs]
    simp only [List.cons_append, List.append_assoc]
    rw [squeeze_pad, squeeze_listsPair hN n till d m a, squeeze_sep, squeeze_nl,
      squeeze_listsPairs hN n till d m l, ← List.append_assoc (sep l), sep_pairs]
theorem squeeze_listsElems (hN : NumText numText) (n till d m : Nat) :
    ∀ (l : List (Json N)) (r : Str),
    squeeze .out (listsElems numText n till d l ++ r) = elems numText m l ++ squeeze .out r
  | [], r => by rw [listsElems]; rfl
  | a :: l, r => by
    rw [listsElems, elems]
    simp only [List.cons_append, List.append_assoc]
    rw [squeeze_pad, squeeze_lists hN n till d m a, squeeze_sep, squeeze_nl,
      squeeze_listsElems hN n till d m l, ← List.append_assoc (sep l), sep_elems]
end

mutual
theorem squeeze_only (hN : NumText numText) (depths : List (Str × Nat)) (n till d m : Nat)
    (path : Option Str) : ∀ (j : Json N) (r : Str),
    squeeze .out (only numText depths n till d path j ++ r)
      = dump numText compact m j ++ squeeze .out r
  | null, r => by rw [only]; exact squeeze_dump hN 0 m _ r
  | .bool b, r => by rw [only]; exact squeeze_dump hN 0 m _ r
  | num x, r => by rw [only]; exact squeeze_dump hN 0 m _ r
  | str s, r => by rw [only]; exact squeeze_dump hN 0 m _ r
  | arr l, r => by
    rw [only]
    split
    · rw [dump_arr]
      simp only [List.cons_append, List.append_assoc, List.nil_append]
      rw [squeeze_char (by decide) (by decide), squeeze_nl,
        squeeze_onlyElems hN depths n _ (d + 1) (m + 1) l, squeeze_pad,
        squeeze_char (by decide) (by decide)]
    · exact squeeze_dump hN 0 m _ r
  | obj l, r => by
    rw [only]
    split
    · rw [dump_obj]
      simp only [List.cons_append, List.append_assoc, List.nil_append]
      rw [squeeze_char (by decide) (by decide), squeeze_nl,
        squeeze_onlyPairs hN depths n _ (d + 1) (m + 1) path l, squeeze_pad,
        squeeze_char (by decide) (by decide)]
    · exact squeeze_dump hN 0 m _ r
theorem squeeze_onlyPair (hN : NumText numText) (depths : List (Str × Nat)) (n till d m : Nat)
    (path : Option Str) : ∀ (a : Str × Json N) (r : Str),
    squeeze .out (onlyPair numText depths n till d path a ++ r)
      = dumpPair numText compact m a ++ squeeze .out r
  | (k, v), r => by
    rw [onlyPair, dumpPair]
    simp only [compact, List.cons_append, List.append_assoc, List.nil_append]
    rw [squeeze_quote, squeeze_char (by decide) (by decide), squeeze_space (Or.inl rfl)]
    exact congrArg (fun x => quote k ++ ':' :: x) (squeeze_only hN depths n till d m _ v r)
theorem squeeze_onlyPairs (hN : NumText numText) (depths : List (Str × Nat)) (n till d m : Nat)
    (path : Option Str) : ∀ (l : List (Str × Json N)) (r : Str),
    squeeze .out (onlyPairs numText depths n till d path l ++ r)
      = pairs numText m l ++ squeeze .out r
  | [], r => by rw [onlyPairs]; rfl
  | a :: l, r => by
    rw [onlyPairs, pairs]
    simp only [List.cons_append, List.append_assoc]
    rw [squeeze_pad, squeeze_onlyPair hN depths n till d m path a, squeeze_sep, squeeze_nl,
      squeeze_onlyPairs hN depths n till d m path l, ← List.append_assoc (sep l), sep_pairs]
theorem squeeze_onlyElems (hN : NumText numText) (depths : List (Str × Nat)) (n till d m : Nat) :
    ∀ (l : List (Json N)) (r : Str),
    squeeze .out (onlyElems numText depths n till d l ++ r)
      = elems numText m l ++ squeeze .out r
  | [], r => by rw [onlyElems]; rfl
  | a :: l, r => by
    rw [onlyElems, elems]
    simp only [List.cons_append, List.append_assoc]
    rw [squeeze_pad, squeeze_only hN depths n till d m none a, squeeze_sep, squeeze_nl,
      squeeze_onlyElems hN depths n till d m l, ← List.append_assoc (sep l), sep_elems]
end

/-- C118: without the white space between the tokens, the dumps with lists indented down to a certain depth
are the usual text of the value. -/
theorem C118_lists (hN : NumText numText) (n till : Nat) (j : Json N) :
    squeeze .out (indentLists numText n till j) = dump numText compact 0 j := by
  have h := squeeze_lists hN n till 0 0 j []
  rw [List.append_nil] at h
  exact h.trans (List.append_nil _)

/-- C118: without the white space between the tokens, the texts indented down to a certain depth, with
other depths for some paths, are the usual text of the value. -/
theorem C118_only (hN : NumText numText) (depths : List (Str × Nat)) (n till : Nat) (j : Json N) :
    squeeze .out (indentOnly numText depths n till j) = dump numText compact 0 j := by
  have h := squeeze_only hN depths n till 0 0 (some []) j []
  rw [List.append_nil] at h
  exact h.trans (List.append_nil _)

/-- C118: different values are shown differently, whatever the indentation of each of them. -/
theorem C118_distinct (hN : NumText numText) (depths depths' : List (Str × Nat))
    (n n' till till' : Nat) (j j' : Json N) :
    (indentLists numText n till j = indentLists numText n' till' j' → j = j') ∧
    (indentOnly numText depths n till j = indentOnly numText depths' n' till' j' → j = j') := by
  refine ⟨fun h => ?_, fun h => ?_⟩
  · refine dump_inj hN compact_ok ?_
    rw [← C118_lists hN n till j, h, C118_lists hN]
  · refine dump_inj hN compact_ok ?_
    rw [← C118_only hN depths n till j, h, C118_only hN]

/-! ## Abbreviated values -/

mutual
theorem truncate_full : ∀ (j : Json N), ∃ n, ∀ d, n ≤ d → ∀ k,
    truncate numText d j = dump numText compact k j
  | null => ⟨1, fun d hd k => by rw [truncate, if_neg (by omega), oneLine, dump, dump]⟩
  | .bool b => ⟨1, fun d hd k => by rw [truncate, if_neg (by omega), oneLine, dump, dump]⟩
  | num x => ⟨1, fun d hd k => by rw [truncate, if_neg (by omega), oneLine, dump, dump]⟩
  | str s => ⟨1, fun d hd k => by rw [truncate, if_neg (by omega), oneLine, dump, dump]⟩
  | arr l => by
    obtain ⟨n, h⟩ := truncateElems_full l
    exact ⟨n + 1, fun d hd k => by
      rw [truncate, if_neg (by omega), dump_arr, h (d - 1) (by omega) (k + 1)]⟩
  | obj l => by
    obtain ⟨n, h⟩ := truncatePairs_full l
    exact ⟨n + 1, fun d hd k => by
      rw [truncate, if_neg (by omega), dump_obj, h (d - 1) (by omega) (k + 1)]⟩
theorem truncatePair_full : ∀ (a : Str × Json N), ∃ n, ∀ d, n ≤ d → ∀ k,
    truncatePair numText d a = dumpPair numText compact k a
  | (s, v) => by
    obtain ⟨n, h⟩ := truncate_full v
    exact ⟨n, fun d hd k => by
      rw [truncatePair, dumpPair, h d hd k]
      simp [compact]⟩
theorem truncatePairs_full : ∀ (l : List (Str × Json N)), ∃ n, ∀ d, n ≤ d → ∀ k,
    truncatePairs numText d l = pairs numText k l
  | [] => ⟨0, fun d _ k => by rw [truncatePairs]; rfl⟩
  | a :: l => by
    obtain ⟨n, h⟩ := truncatePair_full a
    obtain ⟨m, h'⟩ := truncatePairs_full l
    exact ⟨max n m, fun d hd k => by
      rw [truncatePairs, pairs, h d (by omega) k, h' d (by omega) k, List.append_assoc, sep_pairs]⟩
theorem truncateElems_full : ∀ (l : List (Json N)), ∃ n, ∀ d, n ≤ d → ∀ k,
    truncateElems numText d l = elems numText k l
  | [] => ⟨0, fun d _ k => by rw [truncateElems]; rfl⟩
  | a :: l => by
    obtain ⟨n, h⟩ := truncate_full a
    obtain ⟨m, h'⟩ := truncateElems_full l
    exact ⟨max n m, fun d hd k => by
      rw [truncateElems, elems, h d (by omega) k, h' d (by omega) k, List.append_assoc, sep_elems]⟩
end

theorem oneLine_pos (hN : NumText numText) (j : Json N) : 1 ≤ (oneLine numText j).length := by
  unfold oneLine
  match j with
  | null => rw [dump]; decide
  | .bool b => rw [dump]; cases b <;> decide
  | num n =>
    rw [dump]
    obtain ⟨c, t, e, _⟩ := hN.first n
    rw [e]; simp
  | str s => rw [dump]; simp [quote]
  | arr l => rw [dump_arr]; simp
  | obj l => rw [dump_obj]; simp

mutual
theorem truncate_mono (hN : NumText numText) (d : Nat) : ∀ (j : Json N),
    (truncate numText d j).length ≤ (truncate numText (d + 1) j).length
  | null => by
    rw [truncate, truncate, if_neg (Nat.succ_ne_zero d)]
    split
    · exact oneLine_pos hN _
    · exact Nat.le_refl _
  | .bool b => by
    rw [truncate, truncate, if_neg (Nat.succ_ne_zero d)]
    split
    · exact oneLine_pos hN _
    · exact Nat.le_refl _
  | num x => by
    rw [truncate, truncate, if_neg (Nat.succ_ne_zero d)]
    split
    · exact oneLine_pos hN _
    · exact Nat.le_refl _
  | str s => by
    rw [truncate, truncate, if_neg (Nat.succ_ne_zero d)]
    split
    · exact oneLine_pos hN _
    · exact Nat.le_refl _
  | arr l => by
    rw [truncate, truncate, if_neg (Nat.succ_ne_zero d)]
    split
    · simp
    · have h := truncateElems_mono hN (d - 1) l
      rw [show d + 1 - 1 = d - 1 + 1 by omega]
      simp only [List.length_cons, List.length_append]
      omega
  | obj l => by
    rw [truncate, truncate, if_neg (Nat.succ_ne_zero d)]
    split
    · simp
    · have h := truncatePairs_mono hN (d - 1) l
      rw [show d + 1 - 1 = d - 1 + 1 by omega]
      simp only [List.length_cons, List.length_append]
      omega
theorem truncatePair_mono (hN : NumText numText) (d : Nat) : ∀ (a : Str × Json N),
    (truncatePair numText d a).length ≤ (truncatePair numText (d + 1) a).length
  | (s, v) => by
    have h := truncate_mono hN d v
    rw [truncatePair, truncatePair]
    simp only [List.length_cons, List.length_append]
    omega
theorem truncatePairs_mono (hN : NumText numText) (d : Nat) : ∀ (l : List (Str × Json N)),
    (truncatePairs numText d l).length ≤ (truncatePairs numText (d + 1) l).length
  | [] => by rw [truncatePairs, truncatePairs]
  | a :: l => by
    have h := truncatePair_mono hN d a
    have h' := truncatePairs_mono hN d l
    rw [truncatePairs, truncatePairs]
    simp only [List.length_append]
    omega
theorem truncateElems_mono (hN : NumText numText) (d : Nat) : ∀ (l : List (Json N)),
    (truncateElems numText d l).length ≤ (truncateElems numText (d + 1) l).length
  | [] => by rw [truncateElems, truncateElems]
  | a :: l => by
    have h := truncate_mono hN d a
    have h' := truncateElems_mono hN d l
    rw [truncateElems, truncateElems]
    simp only [List.length_append]
    omega
end

theorem truncate_le (hN : NumText numText) (j : Json N) {d d' : Nat} (h : d ≤ d') :
    (truncate numText d j).length ≤ (truncate numText d' j).length := by
  induction h with
  | refl => exact Nat.le_refl _
  | step _ ih => exact ih.trans (truncate_mono hN _ j)

/-- What the loop returns. -/
theorem grow_spec {j : Json N} {len : Nat} : ∀ (f i : Nat) (old s : Str),
    grow numText j len f i old = some s →
      ∃ e, i ≤ e ∧ len < (truncate numText e j).length ∧
        (∀ x, i ≤ x → x < e → (truncate numText x j).length ≤ len) ∧
        s = if e = i then old else truncate numText (e - 1) j
  | 0, i, old, s, h => by rw [grow] at h; cases h
  | f + 1, i, old, s, h => by
    rw [grow] at h
    split at h
    · rename_i hl
      obtain ⟨e, h1, h2, h3, h4⟩ := grow_spec f (i + 1) _ s h
      refine ⟨e, by omega, h2, fun x hx hx' => ?_, ?_⟩
      · by_cases hxi : x = i
        · rw [hxi]; exact hl
        · exact h3 x (by omega) hx'
      · rw [if_neg (by omega)]
        by_cases hei : e = i + 1
        · rw [if_pos hei] at h4
          rw [h4, hei]; rfl
        · rw [if_neg hei] at h4
          exact h4
    · rename_i hl
      cases h
      exact ⟨i, Nat.le_refl _, by omega, fun x hx hx' => by omega, by rw [if_pos rfl]⟩

theorem grow_ends {j : Json N} {len e : Nat} (he : len < (truncate numText e j).length) :
    ∀ (f i : Nat) (old : Str), i ≤ e → e < i + f → ∃ s, grow numText j len f i old = some s
  | 0, i, old, h1, h2 => by omega
  | f + 1, i, old, h1, h2 => by
    rw [grow]
    split
    · rename_i hl
      have : i ≠ e := by rintro rfl; omega
      exact grow_ends he f (i + 1) _ (by omega) (by omega)
    · exact ⟨_, rfl⟩

/-- C118: abbreviating always ends. -/
theorem C118_ends (j : Json N) (len : Nat) :
    ∃ n, ∀ rounds, n ≤ rounds → ∃ s, abbreviate numText rounds j len = some s := by
  obtain ⟨n, h⟩ := truncate_full (numText := numText) j
  refine ⟨n + 2, fun rounds hr => ?_⟩
  unfold abbreviate
  split
  · exact ⟨_, rfl⟩
  · rename_i hl
    refine grow_ends (e := n + 1) ?_ rounds 1 _ (by omega) (by omega)
    rw [h (n + 1) (by omega) 0]
    unfold oneLine at hl
    omega

/-- C118: values that are short enough are shown in full. -/
theorem C118_short {rounds : Nat} {j : Json N} {len : Nat}
    (h : (dump numText compact 0 j).length ≤ len) :
    abbreviate numText rounds j len = some (dump numText compact 0 j) := by
  unfold abbreviate oneLine
  rw [if_pos h]

/-- C118: the text shown is within the limit, if the outermost level alone is. Missing: other values
(`C118_violation_long`, V135). -/
theorem C118_limit_partial {rounds : Nat} {j : Json N} {len : Nat} {s : Str}
    (h : abbreviate numText rounds j len = some s)
    (h1 : (truncate numText 1 j).length ≤ len) : s.length ≤ len := by
  unfold abbreviate at h
  split at h
  · cases h; assumption
  · obtain ⟨e, he, h2, h3, h4⟩ := grow_spec _ _ _ _ h
    split at h4
    · rw [h4]; exact h1
    · rw [h4]; exact h3 (e - 1) (by omega) (by omega)

/-- C118: otherwise, the text is the value down to some level, with everything below replaced by `*`; no
truncation at a deeper level is both different in length and within the limit. -/
theorem C118_longest (hN : NumText numText) {rounds : Nat} {j : Json N} {len : Nat} {s : Str}
    (h : abbreviate numText rounds j len = some s)
    (hl : len < (dump numText compact 0 j).length) :
    ∃ d, 1 ≤ d ∧ s = truncate numText d j ∧
      (∀ d', (truncate numText d' j).length ≤ len → d' ≤ d) ∧
      ∀ d', (truncate numText d' j).length ≤ len →
        (truncate numText d' j).length ≤ s.length := by
  unfold abbreviate at h
  rw [if_neg (by unfold oneLine; omega)] at h
  obtain ⟨e, he, h2, h3, h4⟩ := grow_spec _ _ _ _ h
  have key : ∀ d', (truncate numText d' j).length ≤ len → d' < e := fun d' hd' => by
    by_contra hc
    have := truncate_le hN j (show e ≤ d' by omega)
    omega
  by_cases h1 : e = 1
  · rw [if_pos h1] at h4
    subst h4
    exact ⟨1, Nat.le_refl _, rfl, fun d' hd' => by have := key d' hd'; omega,
      fun d' hd' => truncate_le hN j (by have := key d' hd'; omega)⟩
  · rw [if_neg h1] at h4
    subst h4
    exact ⟨e - 1, by omega, rfl, fun d' hd' => by have := key d' hd'; omega,
      fun d' hd' => truncate_le hN j (by have := key d' hd'; omega)⟩

end JsonText

end Verif
