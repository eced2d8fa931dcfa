import Verif.JsonText.Props

/-!
# Texts of JSON values shown to the user: layout, and what is replaced

C118.
-/

namespace Verif

namespace JsonText

open Json

variable {N : Type} {numText : N → Str}

/-! ## What is replaced -/

/-- Numbers and a further one, written as a star. -/
def starText (numText : N → Str) : Option N → Str
  | none => ['*']
  | some n => numText n

mutual
/-- The value with all parts at level `d` replaced by a star. -/
def cut : Nat → Json N → Json (Option N)
  | 0, _ => num none
  | _ + 1, null => null
  | _ + 1, .bool b => .bool b
  | _ + 1, num n => num (some n)
  | _ + 1, str s => str s
  | d + 1, arr l => arr (cutElems d l)
  | d + 1, obj l => obj (cutPairs d l)
/-- The same for all elements of an array. -/
def cutElems : Nat → List (Json N) → List (Json (Option N))
  | _, [] => []
  | d, v :: l => cut d v :: cutElems d l
/-- The same for one key of an object. -/
def cutPair : Nat → Str × Json N → Str × Json (Option N)
  | d, (k, v) => (k, cut d v)
/-- The same for all keys of an object. -/
def cutPairs : Nat → List (Str × Json N) → List (Str × Json (Option N))
  | _, [] => []
  | d, a :: l => cutPair d a :: cutPairs d l
end

theorem sep_cutElems (d : Nat) (l : List (Json N)) : sep (cutElems d l) = sep l := by
  cases l <;> rw [cutElems] <;> rfl

theorem sep_cutPairs (d : Nat) (l : List (Str × Json N)) : sep (cutPairs d l) = sep l := by
  cases l <;> rw [cutPairs] <;> rfl

mutual
theorem truncate_cut (k : Nat) : ∀ (d : Nat) (j : Json N),
    truncate numText d j = dump (starText numText) compact k (cut d j)
  | 0, null => by rw [truncate, cut, dump, if_pos rfl]; rfl
  | 0, .bool b => by rw [truncate, cut, dump, if_pos rfl]; rfl
  | 0, num n => by rw [truncate, cut, dump, if_pos rfl]; rfl
  | 0, str s => by rw [truncate, cut, dump, if_pos rfl]; rfl
  | 0, arr l => by rw [truncate, cut, dump, if_pos rfl]; rfl
  | 0, obj l => by rw [truncate, cut, dump, if_pos rfl]; rfl
  | d + 1, null => by rw [truncate, cut, dump, if_neg (Nat.succ_ne_zero d), oneLine, dump]
  | d + 1, .bool b => by rw [truncate, cut, dump, if_neg (Nat.succ_ne_zero d), oneLine, dump]
  | d + 1, num n => by rw [truncate, cut, dump, if_neg (Nat.succ_ne_zero d), oneLine, dump]; rfl
  | d + 1, str s => by rw [truncate, cut, dump, if_neg (Nat.succ_ne_zero d), oneLine, dump]
  | d + 1, arr l => by
    rw [truncate, cut, dump_arr, if_neg (Nat.succ_ne_zero d), Nat.add_sub_cancel,
      truncateElems_cut (k + 1) d l]
  | d + 1, obj l => by
    rw [truncate, cut, dump_obj, if_neg (Nat.succ_ne_zero d), Nat.add_sub_cancel,
      truncatePairs_cut (k + 1) d l]
theorem truncatePair_cut (k : Nat) : ∀ (d : Nat) (a : Str × Json N),
    truncatePair numText d a = dumpPair (starText numText) compact k (cutPair d a)
  | d, (s, v) => by
    rw [truncatePair, cutPair, dumpPair, truncate_cut k d v]
    simp [compact]
theorem truncatePairs_cut (k : Nat) : ∀ (d : Nat) (l : List (Str × Json N)),
    truncatePairs numText d l = pairs (starText numText) k (cutPairs d l)
  | d, [] => by rw [truncatePairs, cutPairs]; rfl
  | d, a :: l => by
    rw [truncatePairs, cutPairs, pairs, truncatePair_cut k d a, truncatePairs_cut k d l,
      List.append_assoc, ← sep_cutPairs d l, sep_pairs]
theorem truncateElems_cut (k : Nat) : ∀ (d : Nat) (l : List (Json N)),
    truncateElems numText d l = elems (starText numText) k (cutElems d l)
  | d, [] => by rw [truncateElems, cutElems]; rfl
  | d, a :: l => by
    rw [truncateElems, cutElems, elems, truncate_cut k d a, truncateElems_cut k d l,
      List.append_assoc, ← sep_cutElems d l, sep_elems]
end

/-- C118: an abbreviated value is the usual text, with a star for each part at a certain level; what is
above is complete. -/
theorem C118_truncated (d : Nat) (j : Json N) :
    truncate numText d j = dump (starText numText) compact 0 (cut d j) :=
  truncate_cut 0 d j

/-! ## Line breaks -/

mutual
/-- Number of line breaks if objects and arrays are opened as told by `o`: one for each part of them, and
one more. -/
def breaks (o : Bool → Nat → Bool) : Nat → Json N → Nat
  | d, obj l => if o true d then 1 + breaksPairs o (d + 1) l else 0
  | d, arr l => if o false d then 1 + breaksElems o (d + 1) l else 0
  | _, null => 0
  | _, .bool _ => 0
  | _, num _ => 0
  | _, str _ => 0
/-- The same for a key. -/
def breaksPair (o : Bool → Nat → Bool) : Nat → Str × Json N → Nat
  | d, (_, v) => 1 + breaks o d v
/-- The same for the keys of an object. -/
def breaksPairs (o : Bool → Nat → Bool) : Nat → List (Str × Json N) → Nat
  | _, [] => 0
  | d, a :: l => breaksPair o d a + breaksPairs o d l
/-- The same for the elements of an array. -/
def breaksElems (o : Bool → Nat → Bool) : Nat → List (Json N) → Nat
  | _, [] => 0
  | d, v :: l => 1 + breaks o d v + breaksElems o d l
end

theorem esc_line (c : Char) : '\n' ∉ esc c := by
  rcases esc_cases c with ⟨x, e, _, h⟩ | ⟨e, hc⟩ | ⟨e, h1, h2⟩
  · rw [e]
    intro hm
    simp only [List.mem_cons, List.not_mem_nil, or_false] at hm
    rcases hm with hm | hm
    · exact absurd hm (by decide)
    · subst hm
      simp at h
  · have hx : ∀ n, n < 16 → hexDigit n ≠ '\n' := by decide
    have a := hx (c.toNat / 16) (by omega)
    have b := hx (c.toNat % 16) (by omega)
    rw [e]
    intro hm
    simp only [List.mem_cons, List.not_mem_nil, or_false] at hm
    rcases hm with hm | hm | hm | hm | hm | hm
    · exact absurd hm (by decide)
    · exact absurd hm (by decide)
    · exact absurd hm (by decide)
    · exact absurd hm (by decide)
    · exact a hm.symm
    · exact b hm.symm
  · intro hm
    rw [e, List.mem_singleton] at hm
    subst hm
    exact absurd e (by decide)

theorem quote_line (s : Str) : (quote s).count '\n' = 0 := by
  refine List.count_eq_zero.mpr fun h => ?_
  unfold quote at h
  simp only [List.cons_append, List.mem_cons, List.mem_append, List.mem_flatMap,
    List.not_mem_nil, or_false] at h
  rcases h with h | ⟨c, _, h⟩ | h
  · exact absurd h (by decide)
  · exact esc_line c h
  · exact absurd h (by decide)

theorem num_line (hN : NumText numText) (m : N) : (numText m).count '\n' = 0 :=
  List.count_eq_zero.mpr fun h => absurd (hN.chars m _ h) (by decide)

mutual
theorem dump_line (hN : NumText numText) (k : Nat) : ∀ (j : Json N),
    (dump numText compact k j).count '\n' = 0
  | null => by rw [dump]; decide
  | .bool b => by rw [dump]; cases b <;> decide
  | num n => by rw [dump]; exact num_line hN n
  | str s => by rw [dump]; exact quote_line s
  | arr [] => by rw [dump]; decide
  | arr (a :: l) => by
    have h1 := dump_line hN (k + 1) a
    have h2 := dumpElems_line hN (k + 1) l
    rw [dump]
    simp [nl_compact, List.count_append, h1, h2]
  | obj [] => by rw [dump]; decide
  | obj (a :: l) => by
    have h1 := dumpPair_line hN (k + 1) a
    have h2 := dumpPairs_line hN (k + 1) l
    rw [dump]
    simp [nl_compact, List.count_append, h1, h2]
theorem dumpElems_line (hN : NumText numText) (k : Nat) : ∀ (l : List (Json N)),
    (dumpElems numText compact k l).count '\n' = 0
  | [] => by rw [dumpElems]; rfl
  | a :: l => by
    have h1 := dump_line hN k a
    have h2 := dumpElems_line hN k l
    rw [dumpElems]
    simp [nl_compact, List.count_append, h1, h2]
theorem dumpPair_line (hN : NumText numText) (k : Nat) : ∀ (a : Str × Json N),
    (dumpPair numText compact k a).count '\n' = 0
  | (s, v) => by
    have h1 := dump_line hN k v
    rw [dumpPair, List.count_append, List.count_append, h1, quote_line]
    decide
theorem dumpPairs_line (hN : NumText numText) (k : Nat) : ∀ (l : List (Str × Json N)),
    (dumpPairs numText compact k l).count '\n' = 0
  | [] => by rw [dumpPairs]; rfl
  | a :: l => by
    have h1 := dumpPair_line hN k a
    have h2 := dumpPairs_line hN k l
    rw [dumpPairs]
    simp [nl_compact, List.count_append, h1, h2]
end

theorem pad_line (n d : Nat) : (pad n d).count '\n' = 0 := by
  refine List.count_eq_zero.mpr fun h => ?_
  unfold pad at h
  obtain ⟨s, hs, hc⟩ := List.mem_flatten.mp h
  rw [(List.mem_replicate.mp hs).2] at hc
  exact absurd (List.mem_replicate.mp hc).2 (by decide)

theorem sep_line {α : Type} (l : List α) : (sep l).count '\n' = 0 := by
  cases l with
  | nil => rfl
  | cons a l => exact (by decide : ([','] : Str).count '\n' = 0)

/-- What is opened by `IndentListsOnlyUntilDepth`: all objects, and arrays above the depth given. -/
def opensLists (till : Nat) (object : Bool) (d : Nat) : Bool := object || decide (d < till)

/-- What is opened by `IndentOnlyUntilDepth`: everything above the depth given. -/
def opensAll (till : Nat) (_object : Bool) (d : Nat) : Bool := decide (d < till)

mutual
theorem lists_line (hN : NumText numText) (n till : Nat) : ∀ (d : Nat) (j : Json N),
    (lists numText n till d j).count '\n' = breaks (opensLists till) d j
  | d, null => by rw [lists, breaks]; exact dump_line hN 0 _
  | d, .bool b => by rw [lists, breaks]; exact dump_line hN 0 _
  | d, num m => by rw [lists, breaks]; exact dump_line hN 0 _
  | d, str s => by rw [lists, breaks]; exact dump_line hN 0 _
  | d, arr l => by
    rw [lists, breaks]
    by_cases h : d < till
    · rw [if_pos h, if_pos (by simp [opensLists, h])]
      have h1 := listsElems_line hN n till (d + 1) l
      simp [List.count_append, h1, pad_line]
      omega
    · rw [if_neg h, if_neg (by simp [opensLists, h])]
      exact dump_line hN 0 _
  | d, obj l => by
    rw [lists, breaks, if_pos (by simp [opensLists])]
    have h1 := listsPairs_line hN n till (d + 1) l
    simp [List.count_append, h1, pad_line]
    omega
theorem listsPair_line (hN : NumText numText) (n till : Nat) : ∀ (d : Nat) (a : Str × Json N),
    (listsPair numText n till d a).count '\n' + 1 = breaksPair (opensLists till) d a
  | d, (k, v) => by
    rw [listsPair, breaksPair]
    have h1 := lists_line hN n till d v
    simp [List.count_append, h1, quote_line]
    omega
theorem listsPairs_line (hN : NumText numText) (n till : Nat) :
    ∀ (d : Nat) (l : List (Str × Json N)),
    (listsPairs numText n till d l).count '\n' = breaksPairs (opensLists till) d l
  | d, [] => by rw [listsPairs, breaksPairs]; rfl
  | d, a :: l => by
    rw [listsPairs, breaksPairs]
    have h1 := listsPair_line hN n till d a
    have h2 := listsPairs_line hN n till d l
    simp [List.count_append, h2, pad_line, sep_line]
    omega
theorem listsElems_line (hN : NumText numText) (n till : Nat) : ∀ (d : Nat) (l : List (Json N)),
    (listsElems numText n till d l).count '\n' = breaksElems (opensLists till) d l
  | d, [] => by rw [listsElems, breaksElems]; rfl
  | d, a :: l => by
    rw [listsElems, breaksElems]
    have h1 := lists_line hN n till d a
    have h2 := listsElems_line hN n till d l
    simp [List.count_append, h1, h2, pad_line, sep_line]
    omega
end

/-- No depth of its own for the path or one below it. -/
def Plain (depths : List (Str × Nat)) (path : Option Str) : Prop :=
  ∀ p, path = some p → ∀ s, assoc (p ++ s) depths = none

theorem Plain.till {depths : List (Str × Nat)} {path : Option Str} (h : Plain depths path)
    (till : Nat) : tillAt depths path till = till := by
  cases path with
  | none => rfl
  | some p =>
    have := h p rfl []
    rw [List.append_nil] at this
    simp [tillAt, this]

theorem Plain.key {depths : List (Str × Nat)} {path : Option Str} (h : Plain depths path)
    (k : Str) : Plain depths (path.map fun p => p ++ '/' :: k) := by
  intro p hp s
  cases path with
  | none => cases hp
  | some q =>
    cases hp
    rw [List.append_assoc]
    exact h q rfl _

theorem Plain.none {depths : List (Str × Nat)} : Plain depths none := fun _ h => by cases h

mutual
theorem only_line (hN : NumText numText) {depths : List (Str × Nat)} (n till : Nat) :
    ∀ (d : Nat) (path : Option Str) (j : Json N), Plain depths path →
    (only numText depths n till d path j).count '\n' = breaks (opensAll till) d j
  | d, path, null, _ => by rw [only, breaks]; exact dump_line hN 0 _
  | d, path, .bool b, _ => by rw [only, breaks]; exact dump_line hN 0 _
  | d, path, num m, _ => by rw [only, breaks]; exact dump_line hN 0 _
  | d, path, str s, _ => by rw [only, breaks]; exact dump_line hN 0 _
  | d, path, arr l, hp => by
    rw [only, breaks, hp.till]
    by_cases h : d < till
    · rw [if_pos h, if_pos (by simp [opensAll, h])]
      have h1 := onlyElems_line hN (depths := depths) n till (d + 1) l
      simp [List.count_append, h1, pad_line]
      omega
    · rw [if_neg h, if_neg (by simp [opensAll, h])]
      exact dump_line hN 0 _
  | d, path, obj l, hp => by
    rw [only, breaks, hp.till]
    by_cases h : d < till
    · rw [if_pos h, if_pos (by simp [opensAll, h])]
      have h1 := onlyPairs_line hN n till (d + 1) path l fun k => hp.key k
      simp [List.count_append, h1, pad_line]
      omega
    · rw [if_neg h, if_neg (by simp [opensAll, h])]
      exact dump_line hN 0 _
theorem onlyPair_line (hN : NumText numText) {depths : List (Str × Nat)} (n till : Nat) :
    ∀ (d : Nat) (path : Option Str) (a : Str × Json N),
    Plain depths (path.map fun p => p ++ '/' :: a.1) →
    (onlyPair numText depths n till d path a).count '\n' + 1 = breaksPair (opensAll till) d a
  | d, path, (k, v), hp => by
    rw [onlyPair, breaksPair]
    have h1 := only_line hN n till d (path.map fun p => p ++ '/' :: k) v hp
    simp [List.count_append, h1, quote_line]
    omega
theorem onlyPairs_line (hN : NumText numText) {depths : List (Str × Nat)} (n till : Nat) :
    ∀ (d : Nat) (path : Option Str) (l : List (Str × Json N)),
    (∀ k, Plain depths (path.map fun p => p ++ '/' :: k)) →
    (onlyPairs numText depths n till d path l).count '\n' = breaksPairs (opensAll till) d l
  | d, path, [], _ => by rw [onlyPairs, breaksPairs]; rfl
  | d, path, a :: l, hp => by
    rw [onlyPairs, breaksPairs]
    have h1 := onlyPair_line hN n till d path a (hp a.1)
    have h2 := onlyPairs_line hN n till d path l hp
    simp [List.count_append, h2, pad_line, sep_line]
    omega
theorem onlyElems_line (hN : NumText numText) {depths : List (Str × Nat)} (n till : Nat) :
    ∀ (d : Nat) (l : List (Json N)),
    (onlyElems numText depths n till d l).count '\n' = breaksElems (opensAll till) d l
  | d, [] => by rw [onlyElems, breaksElems]; rfl
  | d, a :: l => by
    rw [onlyElems, breaksElems]
    have h1 := only_line hN (depths := depths) n till d none a Plain.none
    have h2 := onlyElems_line hN (depths := depths) n till d l
    simp [List.count_append, h1, h2, pad_line, sep_line]
    omega
end

/-- A path with nothing special below it: the depth applicable to it is used. -/
theorem own_line (hN : NumText numText) {depths : List (Str × Nat)} (n till t d : Nat) (p : Str)
    (j : Json N) (ht : tillAt depths (some p) till = t)
    (hp : ∀ k, Plain depths (some (p ++ '/' :: k))) :
    (only numText depths n till d (some p) j).count '\n' = breaks (opensAll t) d j := by
  match j with
  | null => rw [only, breaks]; exact dump_line hN 0 _
  | .bool b => rw [only, breaks]; exact dump_line hN 0 _
  | num m => rw [only, breaks]; exact dump_line hN 0 _
  | str s => rw [only, breaks]; exact dump_line hN 0 _
  | arr l =>
    rw [only, breaks, ht]
    by_cases h : d < t
    · rw [if_pos h, if_pos (by simp [opensAll, h])]
      have h1 := onlyElems_line hN (depths := depths) n t (d + 1) l
      simp [List.count_append, h1, pad_line]
      omega
    · rw [if_neg h, if_neg (by simp [opensAll, h])]
      exact dump_line hN 0 _
  | obj l =>
    rw [only, breaks, ht]
    by_cases h : d < t
    · rw [if_pos h, if_pos (by simp [opensAll, h])]
      have h1 := onlyPairs_line hN n t (d + 1) (some p) l hp
      simp [List.count_append, h1, pad_line]
      omega
    · rw [if_neg h, if_neg (by simp [opensAll, h])]
      exact dump_line hN 0 _

/-- C118: with a depth of its own for one key of an object, as for `provides` in the result of a target,
the value of this key is opened down to that depth, and all others down to the general one. -/
theorem C118_own_depth (hN : NumText numText) (n till t : Nat) (k : Str) (hk : '/' ∉ k)
    (ht : 0 < till) (l : List (Str × Json N)) :
    (indentOnly numText [('/' :: k, t)] n till (obj l)).count '\n' =
      1 + (l.map fun a => 1 + breaks (opensAll (if a.1 = k then t else till)) 1 a.2).sum := by
  have top : tillAt [('/' :: k, t)] (some []) till = till := rfl
  have one : ∀ a : Str × Json N,
      (onlyPair numText [('/' :: k, t)] n till 1 (some []) a).count '\n' =
        breaks (opensAll (if a.1 = k then t else till)) 1 a.2 := by
    rintro ⟨q, v⟩
    have hv : (only numText [('/' :: k, t)] n till 1 (some ('/' :: q)) v).count '\n' =
        breaks (opensAll (if q = k then t else till)) 1 v := by
      have below : ∀ x r : Str, assoc ('/' :: q ++ '/' :: x ++ r) [('/' :: k, t)] = none := by
        intro x r
        have : '/' :: q ++ '/' :: x ++ r ≠ '/' :: k := by
          intro e
          simp only [List.cons_append, List.append_assoc, List.cons.injEq, true_and] at e
          exact hk (by rw [← e]; simp)
        simp only [assoc, if_neg this]
      have hb : ∀ x, Plain [('/' :: k, t)] (some ('/' :: q ++ '/' :: x)) := by
        intro x p hp r
        cases hp
        exact below x r
      by_cases hq : q = k
      · rw [if_pos hq]
        exact own_line hN n till t 1 _ v (by rw [hq]; simp [tillAt, assoc]) hb
      · rw [if_neg hq]
        exact own_line hN n till till 1 _ v (by simp [tillAt, assoc, hq]) hb
    rw [onlyPair]
    simp [List.count_append, hv, quote_line]
  unfold indentOnly
  rw [only, top, if_pos ht]
  have all : ∀ l : List (Str × Json N),
      (onlyPairs numText [('/' :: k, t)] n till 1 (some []) l).count '\n' =
        (l.map fun a => 1 + breaks (opensAll (if a.1 = k then t else till)) 1 a.2).sum := by
    intro l
    induction l with
    | nil => rw [onlyPairs]; rfl
    | cons a l ih =>
      rw [onlyPairs]
      simp only [List.count_append, List.count_cons, pad_line, sep_line, one a, ih, List.map_cons,
        List.sum_cons]
      simp
      omega
  have := all l
  simp [List.count_append, pad_line, this]
  omega

/-- C118: the dumps have one line for each key and each element that is opened and one for each closing
bracket of these: objects are opened at all levels, arrays above the depth given; everything else is in one
line. -/
theorem C118_lines (hN : NumText numText) (n till : Nat) (j : Json N) :
    (indentLists numText n till j).count '\n' = breaks (opensLists till) 0 j ∧
    (indentOnly numText [] n till j).count '\n' = breaks (opensAll till) 0 j :=
  ⟨lists_line hN n till 0 j, only_line hN n till 0 (some []) j fun _ _ _ => rfl⟩

/-! ## Values that are left out -/

/-- C118: the keys without value, and no others, are left out of the configurations shown. -/
theorem C118_pruned (l : List (Str × Json N)) :
    ∃ l', prune (obj l) = obj l' ∧ l'.Sublist l ∧
      ∀ k v, (k, v) ∈ l' ↔ (k, v) ∈ l ∧ v ≠ null := by
  refine ⟨_, rfl, List.filter_sublist, fun k v => ?_⟩
  rw [List.mem_filter]
  refine and_congr_right fun _ => ?_
  cases v <;> simp

end JsonText

end Verif
