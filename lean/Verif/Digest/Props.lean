import Verif.Digest.Model

/-!
# Digests and their representations: C44, C45, C46
-/

namespace Verif.Dig

/-- A digest: a hash of the length given by the hash type consisting of hexadecimal digits; trees only
exist for git hashes. -/
structure Digest.Valid (d : Digest) : Prop where
  length : d.hash.length = d.type.length
  hex : ∀ c ∈ d.hash, isHexDigit c = true
  tree : d.tree = true → d.type = .gitSHA1

instance (d : Digest) : Decidable d.Valid :=
  decidable_of_iff (d.hash.length = d.type.length ∧ (∀ c ∈ d.hash, isHexDigit c = true) ∧
    (d.tree = true → d.type = .gitSHA1)) ⟨fun ⟨a, b, c⟩ => ⟨a, b, c⟩, fun ⟨a, b, c⟩ => ⟨a, b, c⟩⟩

theorem validInput_iff (d : Digest) : validInput d.type d.hash d.tree = true ↔ d.Valid := by
  obtain ⟨h, t, tr, s⟩ := d
  simp only [validInput, isHexString, Bool.and_eq_true, List.all_eq_true, beq_iff_eq,
    Bool.not_eq_true']
  constructor
  · rintro ⟨⟨h1, h2⟩, h3⟩
    refine ⟨h2, h3, fun e => ?_⟩
    simp only at e
    subst e
    cases t <;> simp [HashType.treeAllowed, HashType.native] at h1 ⊢
  · rintro ⟨h1, h2, h3⟩
    refine ⟨⟨?_, h1⟩, h2⟩
    cases tr
    · rfl
    · have : t = .gitSHA1 := h3 rfl
      subst this
      rfl

theorem create_some {t : HashType} {h : Str} {tr : Bool} {s : Nat} {d : Digest}
    (e : create t h tr s = some d) : d = ⟨h, t, tr, s⟩ ∧ d.Valid := by
  unfold create at e
  split at e
  · cases e
    rename_i hv
    exact ⟨rfl, (validInput_iff ⟨h, t, tr, s⟩).mp hv⟩
  · cases e

theorem create_valid {d : Digest} (h : d.Valid) : create d.type d.hash d.tree d.size = some d := by
  unfold create
  rw [if_pos ((validInput_iff d).mpr h)]

/-! ## C44: wire format -/

theorem isPrefixed_prefixed {d : Digest} (h : d.Valid) :
    isPrefixed d.type (prefixed d.hash d.tree) = true := by
  simp only [isPrefixed, prefixed, List.length_append, h.length, beq_iff_eq]
  cases d.tree <;> simp <;> omega

theorem isPrefixed_plain {d : Digest} (h : d.Valid) : isPrefixed d.type d.hash = false := by
  simp [isPrefixed, h.length]

theorem drop_prefixed (h : Str) (t : Bool) : (prefixed h t).drop 2 = h := by
  cases t <;> rfl

theorem tag_prefixed (h : Str) (t : Bool) : treeTag.isPrefixOf (prefixed h t) = t := by
  cases t <;> rfl

theorem toUnsigned_ofNat {n : Nat} (h : n < 2 ^ 64) : toUnsigned (n : Int) = n := by
  unfold toUnsigned
  omega

/-- C44: every digest (of a blob of less than 2^63 bytes) can be converted to the wire format, and
converting it back gives the digest, including whether it is a tree. -/
theorem C44_round_trip (d : Digest) (h : d.Valid) (hs : d.size < 2 ^ 63) :
    ∃ w, toBazel d = some w ∧ fromBazel d.type w = some d := by
  unfold toBazel
  rw [if_pos hs]
  refine ⟨_, rfl, ?_⟩
  unfold fromBazel
  simp only
  rw [toUnsigned_ofNat (by omega)]
  by_cases hn : d.type.native = true
  · rw [if_pos hn, isPrefixed_prefixed h, if_pos rfl, drop_prefixed, tag_prefixed, Bool.true_and]
    exact create_valid h
  · rw [if_neg hn, isPrefixed_plain h, if_neg (by decide), Bool.false_and]
    have ht : d.tree = false := by
      cases e : d.tree
      · rfl
      · exact absurd (by rw [h.tree e]; rfl) hn
    rw [← ht]
    exact create_valid h

/-- C44: different digests of one protocol, in particular a blob and a tree, have different wire
formats. -/
theorem C44_injective (d d' : Digest) (h : d.Valid) (h' : d'.Valid) (ht : d.type = d'.type) (w : Wire)
    (e : toBazel d = some w) (e' : toBazel d' = some w) : d = d' := by
  have size : ∀ d : Digest, toBazel d = some w → d.size < 2 ^ 63 := by
    intro d e
    unfold toBazel at e
    split at e
    · assumption
    · cases e
  obtain ⟨w1, h1, h2⟩ := C44_round_trip d h (size d e)
  obtain ⟨w2, h3, h4⟩ := C44_round_trip d' h' (size d' e')
  rw [e] at h1
  rw [e'] at h3
  cases h1
  cases h3
  rw [ht, h4] at h2
  exact (Option.some.inj h2).symm

/-- C44, for what is accepted from the wire (more than digests that were converted, see
`C44_violation`): the result is a proper digest of the expected type, named by the last characters of the
received hash; it is a tree exactly if the tag is the one of trees. -/
theorem C44_accepts_partial (t : HashType) (w : Wire) (d : Digest) (e : fromBazel t w = some d) :
    d.Valid ∧ d.type = t ∧
    ((w.hash = d.hash ∧ d.tree = false) ∨
      ∃ a b, w.hash = a :: b :: d.hash ∧ (d.tree = true ↔ [a, b] = treeTag)) := by
  obtain ⟨rfl, hv⟩ := create_some e
  refine ⟨hv, rfl, ?_⟩
  cases hp : isPrefixed t w.hash
  · exact Or.inl ⟨rfl, rfl⟩
  · right
    have hl := hp
    simp only [isPrefixed, beq_iff_eq] at hl
    obtain ⟨hash, size⟩ := w
    simp only at hl ⊢
    match hash, hl with
    | a :: b :: r, _ =>
      refine ⟨a, b, rfl, ?_⟩
      simp only [Bool.true_and, List.isPrefixOf, Bool.and_true, Bool.and_eq_true, beq_iff_eq,
        List.cons.injEq, and_true]
      constructor
      · rintro ⟨rfl, rfl⟩; exact ⟨rfl, rfl⟩
      · rintro ⟨rfl, rfl⟩; exact ⟨rfl, rfl⟩

/-- 40 zeros. -/
abbrev zeros : Str := List.replicate 40 '0'

/-- C44 does not hold for all wire strings: with git hashes, hashes without tag, with a tag that is none,
and with a negative size are accepted. -/
theorem C44_violation :
    fromBazel .gitSHA1 ⟨'z' :: '/' :: zeros, 5⟩ = some ⟨zeros, .gitSHA1, false, 5⟩ ∧
    fromBazel .gitSHA1 ⟨zeros, 5⟩ = some ⟨zeros, .gitSHA1, false, 5⟩ ∧
    fromBazel .plainSHA256 ⟨'z' :: '/' :: List.replicate 64 '0', 5⟩
      = some ⟨List.replicate 64 '0', .plainSHA256, false, 5⟩ ∧
    fromBazel .gitSHA1 ⟨zeros, -1⟩ = some ⟨zeros, .gitSHA1, false, 2 ^ 64 - 1⟩ := by
  decide

example : ∃ w, toBazel ⟨zeros, .gitSHA1, true, 5⟩ = some w ∧
    fromBazel .gitSHA1 w = some ⟨zeros, .gitSHA1, true, 5⟩ :=
  C44_round_trip ⟨zeros, .gitSHA1, true, 5⟩ (by decide) (by decide)

example (w : Wire) (h : toBazel ⟨zeros, .gitSHA1, true, 5⟩ = some w) :
    toBazel ⟨zeros, .gitSHA1, false, 5⟩ ≠ some w := fun h' =>
  absurd (C44_injective ⟨zeros, .gitSHA1, true, 5⟩ ⟨zeros, .gitSHA1, false, 5⟩ (by decide) (by decide) rfl w h h') (by decide)

example : (⟨zeros, .gitSHA1, true, 5⟩ : Digest).Valid :=
  (C44_accepts_partial .gitSHA1 ⟨treeTag ++ zeros, 5⟩ _ (by decide)).1

/-! ## C45: object infos -/

/-- An object info as produced by the tool: the digest is the one of a tree exactly if the object is a
tree and trees exist for the hash type. -/
structure ObjectInfo.Valid (i : ObjectInfo) : Prop where
  digest : i.digest.Valid
  tree : i.digest.tree = (i.digest.type.treeAllowed && i.type.isTree)

theorem ofChar_toChar (t : ObjectType) : ObjectType.ofChar t.toChar = t := by
  cases t <;> rfl

theorem hex_ne_colon {c : Char} (h : isHexDigit c = true) : c ≠ ':' := by
  rintro rfl
  exact absurd h (by decide)

theorem digit_ne_colon {c : Char} (h : c.isDigit = true) : c ≠ ':' := by
  rintro rfl
  exact absurd h (by decide)

theorem getline_prefix {delim : Char} {a : Str} (h : ∀ c ∈ a, c ≠ delim) (r : Str) :
    getline delim (some (a ++ delim :: r)) = some (a, some r) := by
  have hm : delim ∈ a ++ delim :: r := by simp
  have h1 : (a ++ delim :: r).takeWhile (fun c => c != delim) = a := by
    rw [List.takeWhile_append_of_pos (fun c hc => by simpa using h c hc)]
    simp
  have h2 : (a ++ delim :: r).dropWhile (fun c => c != delim) = delim :: r := by
    rw [List.dropWhile_append_of_pos (fun c hc => by simpa using h c hc)]
    simp
  obtain ⟨x, xs, hx⟩ : ∃ x xs, a ++ delim :: r = x :: xs := by
    cases a <;> exact ⟨_, _, rfl⟩
  unfold getline
  rw [hx] at hm h1 h2 ⊢
  simp only [if_pos hm, h1, h2, List.drop_succ_cons, List.drop_zero]

/-- C45: parsing the printed form gives digest (hence size) and type back; failure marks are ignored. -/
theorem C45_round_trip (i : ObjectInfo) (h : i.Valid) (hs : i.digest.size < 2 ^ 64) :
    ObjectInfo.ofString i.digest.type (i.toString false) = some { i with failed := false } := by
  obtain ⟨d, ty, fl⟩ := i
  obtain ⟨hd, ht⟩ := h
  simp only at hd ht hs
  unfold ObjectInfo.toString
  simp only [Bool.false_eq_true, if_false]
  have e1 : getline ':' (some (d.hash ++ ':' :: decimal d.size ++
        ':' :: ty.toChar :: ']' :: (if fl then " FAILED".toList else [])))
      = some (d.hash, some (decimal d.size ++
        ':' :: ty.toChar :: ']' :: (if fl then " FAILED".toList else []))) := by
    rw [List.append_assoc, List.cons_append]
    exact getline_prefix (fun c hc => hex_ne_colon (hd.hex c hc)) _
  have e2 := getline_prefix (delim := ':') (a := decimal d.size)
    (fun c hc => digit_ne_colon (decimal_isDigit d.size c hc))
    (ty.toChar :: ']' :: (if fl then " FAILED".toList else []))
  have e3 := getline_prefix (delim := ']') (a := [ty.toChar])
    (fun c hc => by rw [List.mem_singleton.mp hc]; cases ty <;> decide)
    (if fl then " FAILED".toList else [])
  have e4 := stoul_decimal hs [] (fun c t e => by cases e)
  rw [List.append_nil] at e4
  rw [List.singleton_append] at e3
  unfold ObjectInfo.ofString
  simp only [List.cons_append, if_true, e1, Option.bind_some, e2, e3, e4, List.head?_cons,
    Option.getD_some, ofChar_toChar, createDigest, ← ht, create_valid hd]

theorem stoul_lt {s : Str} {n : Nat} (h : stoul s = some n) : n < 2 ^ 64 := by
  have hd : ∀ s n, stoulDigits s = some n → n < 2 ^ 64 := by
    intro s n h
    unfold stoulDigits at h
    split at h
    · cases h
    · split at h
      · rename_i hc
        simp only [Bool.and_eq_true, decide_eq_true_eq] at hc
        injection h with h
        rw [← h]
        exact hc.2
      · cases h
  unfold stoul at h
  split at h
  · cases h
  · split at h
    · simp only [Option.map_eq_some_iff] at h
      obtain ⟨m, _, rfl⟩ := h
      exact Nat.mod_lt _ (by decide)
    · split at h
      · exact hd _ _ h
      · exact hd _ _ h

theorem split_delim {delim : Char} : ∀ {s : Str}, delim ∈ s →
    s = s.takeWhile (fun c => c != delim) ++ delim :: (s.dropWhile (fun c => c != delim)).drop 1
  | x :: xs, h => by
    by_cases hx : x = delim
    · subst hx
      simp
    · have hm : delim ∈ xs := (List.mem_cons.mp h).resolve_left (fun e => hx e.symm)
      rw [List.takeWhile_cons_of_pos (by simpa using hx), List.dropWhile_cons_of_pos (by simpa using hx),
        List.cons_append, ← split_delim hm]

theorem getline_split {delim : Char} {s a : Str} {b : Option Str}
    (h : getline delim (some s) = some (a, b)) (hb : b ≠ none) : ∃ r, s = a ++ delim :: r := by
  cases s with
  | nil => cases h
  | cons x xs =>
    simp only [getline] at h
    split at h
    · rename_i hm
      injection h with h
      injection h with h1 h2
      exact ⟨_, h1 ▸ split_delim hm⟩
    · injection h with h
      injection h with h1 h2
      exact absurd h2.symm hb

/-- C45, for what is accepted (more than printed forms, see `C45_violation`): the text starts with a bracket,
the hash and a colon, and the result is a proper object info of the expected hash type, not marked as
failed. -/
theorem C45_accepts_partial (t : HashType) (s : Str) (i : ObjectInfo)
    (e : ObjectInfo.ofString t s = some i) :
    i.Valid ∧ i.digest.type = t ∧ i.failed = false ∧ i.digest.size < 2 ^ 64 ∧
    ∃ r, s = '[' :: i.digest.hash ++ ':' :: r := by
  cases s with
  | nil => cases e
  | cons c s =>
    simp only [ObjectInfo.ofString] at e
    split at e
    · rename_i hc
      simp only [Option.bind_eq_some_iff] at e
      obtain ⟨x, hx, y, hy, z, _, n, hn, d, hd, e⟩ := e
      injection e with e
      subst e
      obtain ⟨rfl, hv⟩ := create_some hd
      refine ⟨⟨hv, rfl⟩, rfl, rfl, stoul_lt hn, ?_⟩
      obtain ⟨a, b⟩ := x
      obtain ⟨r, hr⟩ := getline_split hx (fun e => by
        subst e
        cases hy)
      exact ⟨r, by rw [hc, hr]; rfl⟩
    · cases e

/-- C45 does not hold for all strings: text after the number, a negative size, a missing type, unknown types,
a missing bracket, and text after it are accepted. -/
theorem C45_violation :
    (∀ s ∈ [":5x:f]", ": +5:f]", ":-18446744073709551611:f]", ":5::]", ":5:quux]", ":5:f", ":5:f]nonsense"],
      ObjectInfo.ofString .gitSHA1 ('[' :: zeros ++ s.toList)
        = some ⟨⟨zeros, .gitSHA1, false, 5⟩, .file, false⟩ ∧
      ∀ i : ObjectInfo, ∀ b, i.digest = ⟨zeros, .gitSHA1, false, 5⟩ →
        i.toString b ≠ '[' :: zeros ++ s.toList) := by
  intro s hs
  refine ⟨?_, ?_⟩
  · revert s; decide
  · intro i b hi h
    have key : ∀ s ∈ [":5x:f]", ": +5:f]", ":-18446744073709551611:f]", ":5::]", ":5:quux]", ":5:f",
        ":5:f]nonsense"], ∀ (t : ObjectType) (f b : Bool),
        ObjectInfo.toString ⟨⟨zeros, .gitSHA1, false, 5⟩, t, f⟩ b ≠ '[' :: zeros ++ s.toList := by
      intro s hs t f b
      cases t <;> cases f <;> cases b <;> revert s <;> decide
    obtain ⟨d, t, f⟩ := i
    simp only at hi
    subst hi
    exact key s hs t f b h

example : ObjectInfo.ofString .gitSHA1
      (ObjectInfo.toString ⟨⟨zeros, .gitSHA1, true, 123⟩, .tree, true⟩ false)
    = some ⟨⟨zeros, .gitSHA1, true, 123⟩, .tree, false⟩ :=
  C45_round_trip ⟨⟨zeros, .gitSHA1, true, 123⟩, .tree, true⟩ ⟨by decide, rfl⟩ (by decide)

example : (⟨⟨zeros, .gitSHA1, true, 123⟩, .tree, false⟩ : ObjectInfo).Valid :=
  (C45_accepts_partial .gitSHA1 ('[' :: zeros ++ ":123:t]".toList) _ (by decide)).1

/-! ## C46: names of byte-stream resources -/

/-- A component of an instance name: not empty, and not reserved. -/
structure Component (s : Str) : Prop where
  ne : s ≠ []
  noSlash : '/' ∉ s
  free : s ≠ blobs ∧ s ≠ uploads ∧ s ∉ otherReserved

theorem splitRequest_part : ∀ (a cur : Str) (fresh : Bool) (s : Str), a ≠ [] → '/' ∉ a →
    splitRequest cur fresh (a ++ '/' :: s) = (cur ++ a) :: splitRequest [] true s
  | [], _, _, _, h, _ => absurd rfl h
  | [c], cur, fresh, s, _, h => by
    have hc : c ≠ '/' := fun e => h (by simp [e])
    simp only [List.cons_append, List.nil_append, splitRequest]
    rw [if_neg (fun h => hc h.1), if_pos ⟨trivial, trivial⟩]
  | c :: d :: t, cur, fresh, s, _, h => by
    have hc : c ≠ '/' := fun e => h (by simp [e])
    rw [List.cons_append, splitRequest, if_neg (fun h => hc h.1),
      splitRequest_part (d :: t) _ false s (by simp) (fun e => h (List.mem_cons_of_mem _ e))]
    simp

theorem splitRequest_last : ∀ (a cur : Str) (fresh : Bool), a ≠ [] → '/' ∉ a →
    splitRequest cur fresh a = [cur ++ a]
  | [], _, _, h, _ => absurd rfl h
  | [c], cur, fresh, _, h => by
    have hc : c ≠ '/' := fun e => h (by simp [e])
    rw [splitRequest, if_neg (fun h => hc h.1), splitRequest, if_neg (by simp)]
  | c :: d :: t, cur, fresh, _, h => by
    have hc : c ≠ '/' := fun e => h (by simp [e])
    rw [splitRequest, if_neg (fun h => hc h.1),
      splitRequest_last (d :: t) _ false (by simp) (fun e => h (List.mem_cons_of_mem _ e))]
    simp

theorem splitRequest_join : ∀ (l : List Str) (fresh : Bool), (∀ a ∈ l, a ≠ [] ∧ '/' ∉ a) →
    splitRequest [] fresh (joinWith '/' l) = l
  | [], _, _ => rfl
  | [a], fresh, h => by
    rw [joinWith, splitRequest_last a [] fresh (h a (by simp)).1 (h a (by simp)).2]
    rfl
  | a :: b :: t, fresh, h => by
    rw [joinWith, splitRequest_part a [] fresh _ (h a (by simp)).1 (h a (by simp)).2,
      splitRequest_join (b :: t) true (fun x hx => h x (List.mem_cons_of_mem _ hx))]
    rfl

theorem findPart_skip {stop other : Str} (l r : List Str)
    (h : ∀ a ∈ l, a ≠ stop ∧ a ≠ other ∧ a ∉ otherReserved) :
    findPart stop other (l ++ stop :: r) = some (l, stop :: r) := by
  induction l with
  | nil => simp [findPart]
  | cons a t ih =>
    obtain ⟨h1, h2, h3⟩ := h a (by simp)
    rw [List.cons_append, findPart, if_neg h1, if_neg h2, if_neg h3,
      ih (fun x hx => h x (List.mem_cons_of_mem _ hx))]
    rfl

theorem decimal_plain (n : Nat) : decimal n ≠ [] ∧ '/' ∉ decimal n := by
  obtain ⟨d, t, _, e⟩ := decimal_head n
  refine ⟨by rw [e]; simp, fun h => ?_⟩
  exact absurd (decimal_isDigit n _ h) (by decide)

theorem wire_plain {d : Digest} (h : d.Valid) {w : Wire} (e : toBazel d = some w) :
    w.hash ≠ [] ∧ '/' ∉ w.hash := by
  unfold toBazel at e
  split at e
  · injection e with e
    subst e
    have h1 : '/' ∉ d.hash := fun hm => absurd (h.hex _ hm) (by decide)
    have h2 : d.hash ≠ [] := by
      intro e
      have := h.length
      rw [e] at this
      cases ht : d.type <;> rw [ht] at this <;> exact absurd this (by decide)
    simp only
    split
    · unfold prefixed
      cases d.tree
      · simp [h1]
      · simp [h1]
    · exact ⟨h2, h1⟩
  · cases e

theorem instance_join {inst : Str} {segs rest : List Str} (hi : inst = joinWith '/' segs)
    (hne : ∀ a ∈ segs, a ≠ []) (hr : rest ≠ []) :
    (if inst = [] then joinWith '/' rest else joinWith '/' (inst :: rest))
      = joinWith '/' (segs ++ rest) := by
  cases segs with
  | nil => rw [hi, joinWith, if_pos rfl]; rfl
  | cons a t =>
    have hne' : inst ≠ [] := by
      rw [hi]
      have := hne a (by simp)
      cases t with
      | nil => exact this
      | cons b u =>
        intro e
        rw [joinWith] at e
        simp at e
    rw [if_neg hne', joinWith_cons _ _ hr, hi, joinWith_append _ (by simp) hr]

/-- C46: the name for reading a blob is parsed to the instance name, hash and size it was made of, and
the server gets the same digest. -/
theorem C46_read (segs : List Str) (hsegs : ∀ s ∈ segs, Component s) (d : Digest) (h : d.Valid)
    (hs : d.size < 2 ^ 63) :
    ∃ w name r, toBazel d = some w ∧ readName (joinWith '/' segs) d = some name ∧
      ReadRequest.ofString name = some r ∧ r = ⟨joinWith '/' segs, w.hash, d.size⟩ ∧
      getDigest d.type r.hash r.size = some d := by
  obtain ⟨w, h1, h2⟩ := C44_round_trip d h hs
  have hw : w.size = d.size := by
    unfold toBazel at h1
    rw [if_pos hs] at h1
    injection h1 with h1
    rw [← h1]
  obtain ⟨p1, p2⟩ := wire_plain h h1
  obtain ⟨q1, q2⟩ := decimal_plain d.size
  have hname : readName (joinWith '/' segs) d
      = some (joinWith '/' (segs ++ [blobs, w.hash, decimal d.size])) := by
    rw [← instance_join rfl (fun a ha => (hsegs a ha).ne) (by simp)]
    unfold readName
    rw [h1, Option.bind_some]
    split <;> rfl
  refine ⟨w, _, ⟨joinWith '/' segs, w.hash, d.size⟩, h1, hname, ?_, rfl, ?_⟩
  · unfold ReadRequest.ofString
    rw [splitRequest_join _ _ (fun a ha => ?_), findPart_skip segs _ (fun a ha => (hsegs a ha).free),
      Option.bind_some]
    · have := stoul_decimal (n := d.size) (by omega) [] (fun c t e => by cases e)
      rw [List.append_nil] at this
      simp only [this, Option.bind_some]
    · simp only [List.mem_append, List.mem_cons, List.not_mem_nil, or_false] at ha
      rcases ha with ha | rfl | rfl | rfl
      · exact ⟨(hsegs a ha).ne, (hsegs a ha).noSlash⟩
      · decide
      · exact ⟨p1, p2⟩
      · exact ⟨q1, q2⟩
  · unfold getDigest toSigned
    simp only [if_pos hs, ← hw]
    exact h2

/-- C46: the name for writing a blob is parsed to the instance name, uuid, hash and size it was made of, and
the server gets the same digest. -/
theorem C46_write (segs : List Str) (hsegs : ∀ s ∈ segs, Component s) (uuid : Str) (hu : uuid ≠ [])
    (hu' : '/' ∉ uuid) (d : Digest) (h : d.Valid) (hs : d.size < 2 ^ 63) :
    ∃ w name r, toBazel d = some w ∧ writeName (joinWith '/' segs) uuid d = some name ∧
      WriteRequest.ofString name = some r ∧ r = ⟨joinWith '/' segs, uuid, w.hash, d.size⟩ ∧
      getDigest d.type r.hash r.size = some d := by
  obtain ⟨w, h1, h2⟩ := C44_round_trip d h hs
  have hw : w.size = d.size := by
    unfold toBazel at h1
    rw [if_pos hs] at h1
    injection h1 with h1
    rw [← h1]
  obtain ⟨p1, p2⟩ := wire_plain h h1
  obtain ⟨q1, q2⟩ := decimal_plain d.size
  have hname : writeName (joinWith '/' segs) uuid d
      = some (joinWith '/' (segs ++ [uploads, uuid, blobs, w.hash, decimal d.size])) := by
    rw [← instance_join rfl (fun a ha => (hsegs a ha).ne) (by simp)]
    unfold writeName
    rw [h1, Option.bind_some]
    split <;> rfl
  refine ⟨w, _, ⟨joinWith '/' segs, uuid, w.hash, d.size⟩, h1, hname, ?_, rfl, ?_⟩
  · unfold WriteRequest.ofString
    rw [splitRequest_join _ _ (fun a ha => ?_),
      findPart_skip segs _ (fun a ha => ⟨(hsegs a ha).free.2.1, (hsegs a ha).free.1,
        (hsegs a ha).free.2.2⟩), Option.bind_some]
    · have := stoul_decimal (n := d.size) (by omega) [] (fun c t e => by cases e)
      rw [List.append_nil] at this
      simp only [if_true, this, Option.bind_some]
    · simp only [List.mem_append, List.mem_cons, List.not_mem_nil, or_false] at ha
      rcases ha with ha | rfl | rfl | rfl | rfl | rfl
      · exact ⟨(hsegs a ha).ne, (hsegs a ha).noSlash⟩
      · decide
      · exact ⟨hu, hu'⟩
      · decide
      · exact ⟨p1, p2⟩
      · exact ⟨q1, q2⟩
  · unfold getDigest toSigned
    simp only [if_pos hs, ← hw]
    exact h2

example : ∃ w name r, toBazel ⟨zeros, .gitSHA1, true, 5⟩ = some w ∧
      readName "remote/main".toList ⟨zeros, .gitSHA1, true, 5⟩ = some name ∧
      ReadRequest.ofString name = some r ∧ r = ⟨"remote/main".toList, w.hash, 5⟩ ∧
      getDigest .gitSHA1 r.hash r.size = some ⟨zeros, .gitSHA1, true, 5⟩ :=
  C46_read ["remote".toList, "main".toList] (fun s hs => by
    simp only [List.mem_cons, List.not_mem_nil, or_false] at hs
    rcases hs with rfl | rfl <;> exact ⟨by decide, by decide, by decide⟩)
    ⟨zeros, .gitSHA1, true, 5⟩ (by decide) (by decide)

example : ∃ w name r, toBazel ⟨zeros, .gitSHA1, false, 5⟩ = some w ∧
      writeName "remote".toList "u-1".toList ⟨zeros, .gitSHA1, false, 5⟩ = some name ∧
      WriteRequest.ofString name = some r ∧ r = ⟨"remote".toList, "u-1".toList, w.hash, 5⟩ ∧
      getDigest .gitSHA1 r.hash r.size = some ⟨zeros, .gitSHA1, false, 5⟩ :=
  C46_write ["remote".toList] (fun s hs => by
    rw [List.mem_singleton.mp hs]; exact ⟨by decide, by decide, by decide⟩)
    "u-1".toList (by decide) (by decide) ⟨zeros, .gitSHA1, false, 5⟩ (by decide) (by decide)

end Verif.Dig
