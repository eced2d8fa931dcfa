import Verif.Expr.Hash
import Verif.Artifact.Props
import Verif.Names.Props

/-!
# Value identifiers: C09
-/

namespace Verif.Expr

open Verif.Art Verif.Dig

variable {N : Type} (h : Hashing N)

/-! ## Hashed strings -/

mutual
/-- The strings that are hashed for references to nodes in the JSON of a value. -/
def hashedJson (all : Bool) : Value N → List Str
  | .result a p r => hashedJson false a ++ hashedJson false p ++ hashedJson false r
  | .valueNode v =>
    (if all then [] else ['#' :: h.dump (valueNodeJson (json h true v))]) ++ hashedJson true v
  | .absNode ty s t =>
    (if all then [] else ['#' :: h.dump (absNodeJson ty (json h true s) (json h false t))])
      ++ hashedJson true s ++ hashedJson false t
  | .list l => hashedJsonList all l
  | .map m => hashedJsonItems all m
  | _ => []
/-- All entries of a list. -/
def hashedJsonList (all : Bool) : List (Value N) → List Str
  | [] => []
  | v :: t => hashedJson all v ++ hashedJsonList all t
/-- All entries of a map. -/
def hashedJsonItems (all : Bool) : List (Str × Value N) → List Str
  | [] => []
  | (_, v) :: t => hashedJson all v ++ hashedJsonItems all t
end

mutual
/-- All strings that are hashed when computing the identifier of a value. -/
def hashed : Value N → List Str
  | .list l => preimage h (.list l) :: hashedList l
  | .map m => preimage h (.map m) :: hashedItems m
  | v => preimage h v :: hashedJson h true v
/-- All entries of a list. -/
def hashedList : List (Value N) → List Str
  | [] => []
  | v :: t => hashed v ++ hashedList t
/-- All keys and entries of a map. -/
def hashedItems : List (Str × Value N) → List Str
  | [] => []
  | (k, v) :: t => k :: hashed v ++ hashedItems t
end

/-- The hash function has no collision among some strings. -/
def NoCollision (H : Str → Str) (S : List Str) : Prop := ∀ s ∈ S, ∀ t ∈ S, H s = H t → s = t

theorem NoCollision.mono {H : Str → Str} {S T : List Str} (hS : NoCollision H S) (hT : ∀ s ∈ T, s ∈ S) :
    NoCollision H T := fun s hs t ht => hS s (hT s hs) t (hT t ht)

/-- What is assumed of hash function and number rendering: hashes are strings of bytes, all of the same,
non-zero length; numbers are rendered injectively by characters of numbers. -/
structure Hashing.OK (h : Hashing N) : Prop where
  length : ∃ n, 0 < n ∧ ∀ s, (h.H s).length = n
  bytes : ∀ s, ∀ c ∈ h.H s, c.toNat < 256
  text : Json.NumText h.text

theorem hexDigit_inj16 : ∀ n, n < 16 → ∀ m, m < 16 → Json.hexDigit n = Json.hexDigit m → n = m := by
  decide

theorem hexString_inj : ∀ {s t : Str}, (∀ c ∈ s, c.toNat < 256) → (∀ c ∈ t, c.toNat < 256) →
    hexString s = hexString t → s = t
  | [], [], _, _, _ => rfl
  | [], _ :: _, _, _, e => by simp [hexString] at e
  | _ :: _, [], _, _, e => by simp [hexString] at e
  | a :: s, b :: t, hs, ht, e => by
    simp only [hexString, List.flatMap_cons, List.cons_append, List.nil_append, List.cons.injEq] at e
    obtain ⟨e1, e2, e3⟩ := e
    have ha := hs a (by simp)
    have hb := ht b (by simp)
    have h1 := hexDigit_inj16 _ (by omega) _ (by omega) e1
    have h2 := hexDigit_inj16 _ (by omega) _ (by omega) e2
    have h3 : a.toNat = b.toNat := by omega
    have h4 : a = b := by rw [← Char.ofNat_toNat a, ← Char.ofNat_toNat b, h3]
    rw [h4, hexString_inj (fun c hc => hs c (by simp [hc])) (fun c hc => ht c (by simp [hc])) e3]

/-! ## JSON inside of results and nodes -/

/-- Values that are determined by their JSON: no list looks like a target name, no map looks like an
artifact, node, or result. -/
inductive Clear (t : HashType) : Value N → Prop where
  | none : Clear t .none
  | bool (b : Bool) : Clear t (.bool b)
  | num (n : N) : Clear t (.num n)
  | str (s : Str) : Clear t (.str s)
  | name (e : Names.Entity) : Clear t (.name e)
  | art {a : Desc} : a.Valid t → a.forget = a → Clear t (.art a)
  | result {a p r : Value N} : Clear t a → Clear t p → Clear t r → Clear t (.result a p r)
  | valueNode {v : Value N} : Clear t v → Clear t (.valueNode v)
  | absNode {ty : Str} {s u : Value N} : Clear t s → Clear t u → Clear t (.absNode ty s u)
  | list {l : List (Value N)} : (∀ v ∈ l, Clear t v) →
      (∀ s r, l = .str s :: r → s ≠ "@".toList ∧ s ≠ "#".toList) → Clear t (.list l)
  | map {m : List (Str × Value N)} : (∀ kv ∈ m, Clear t kv.2) →
      (∀ kv ∈ m, kv.1 ≠ "type".toList ∧ kv.1 ≠ "artifact_stage".toList) → Clear t (.map m)

/-- Kind of a value; all nodes have the same kind. -/
def kind : Value N → Nat
  | .none => 0
  | .bool _ => 1
  | .num _ => 2
  | .str _ => 3
  | .name _ => 4
  | .art _ => 5
  | .result _ _ _ => 6
  | .valueNode _ => 7
  | .absNode _ _ _ => 7
  | .list _ => 8
  | .map _ => 9

/-- Kind of the value a JSON object stems from. -/
def objKind (m : List (Str × Json (N ⊕ Nat))) : Nat :=
  match assoc "type".toList m with
  | some (.str s) =>
    if s = "NODE".toList ∨ s = "VALUE_NODE".toList ∨ s = "ABSTRACT_NODE".toList then 7 else 5
  | _ => if (assoc "artifact_stage".toList m).isSome then 6 else 9

/-- Kind of the value a JSON array stems from. -/
def arrKind (l : List (Json (N ⊕ Nat))) : Nat :=
  match l with
  | .str s :: _ => if s = "@".toList ∨ s = "#".toList then 4 else 8
  | _ => 8

/-- Kind of the value some JSON stems from. -/
def jsonKind : Json (N ⊕ Nat) → Nat
  | .null => 0
  | .bool _ => 1
  | .num _ => 2
  | .str _ => 3
  | .arr l => arrKind l
  | .obj m => objKind m

theorem assoc_jsonItems (all : Bool) (k : Str) : ∀ m : List (Str × Value N),
    (∀ kv ∈ m, kv.1 ≠ k) → assoc k (jsonItems h all m) = none
  | [], _ => rfl
  | (k', v) :: t, hk => by
    have h1 : k' ≠ k := hk (k', v) (by simp)
    simp only [jsonItems, assoc]
    rw [if_neg (Ne.symm h1)]
    exact assoc_jsonItems all k t (fun kv hkv => hk kv (by simp [hkv]))

theorem kind_json (t : HashType) (all : Bool) {v : Value N} (hc : Clear t v) :
    jsonKind (json h all v) = kind v := by
  cases hc with
  | name e => cases e <;> rfl
  | art _ _ => rename_i a _ _; cases a <;> rfl
  | list h1 h2 =>
    rename_i l
    simp only [json, jsonKind, kind]
    cases l with
    | nil => rfl
    | cons w r =>
      simp only [jsonList, arrKind]
      split
      · rename_i s _ heq
        injection heq with heq _
        rw [if_neg]
        cases w with
        | str s' =>
          simp only [json, Json.str.injEq] at heq
          rw [← heq]
          have := h2 s' r rfl
          exact fun hh => hh.elim this.1 this.2
        | name e => cases e <;> simp [json, Names.Entity.toJson] at heq
        | art a => cases a <;> simp [json, Desc.toJson, described] at heq
        | valueNode _ => cases all <;> simp [json, nodeJson, valueNodeJson] at heq
        | absNode _ _ _ => cases all <;> simp [json, nodeJson, absNodeJson] at heq
        | _ => simp [json, resultJson] at heq
      · rfl
  | map h1 h2 =>
    rename_i m
    simp only [json, jsonKind, kind, objKind]
    rw [assoc_jsonItems h all _ m (fun kv hkv => (h2 kv hkv).1),
      assoc_jsonItems h all _ m (fun kv hkv => (h2 kv hkv).2)]
    rfl
  | valueNode _ => cases all <;> rfl
  | absNode _ _ => cases all <;> rfl
  | _ => rfl

theorem dump_inj (ho : h.OK) {i j : Json (N ⊕ Nat)} (e : h.dump i = h.dump j) : i = j :=
  Json.dump_inj ho.text Json.compact_ok e

/-- References to nodes. -/
theorem ref_inj (ho : h.OK) {i j : Json (N ⊕ Nat)}
    (hn : h.H ('#' :: h.dump i) = h.H ('#' :: h.dump j) → '#' :: h.dump i = '#' :: h.dump j)
    (e : nodeJson h false i = nodeJson h false j) : i = j := by
  simp only [nodeJson, Bool.false_eq_true, if_false, Json.obj.injEq, List.cons.injEq,
    Prod.mk.injEq, Json.str.injEq, true_and, and_true] at e
  have := hn (hexString_inj (ho.bytes _) (ho.bytes _) e)
  exact dump_inj h ho (List.cons.inj this).2

/-- What is to be shown for values up to some size. -/
def JsonInj (h : Hashing N) (t : HashType) (n : Nat) : Prop :=
  ∀ (v w : Value N) (all : Bool), sizeOf v ≤ n →
    Clear t v → Clear t w → NoCollision h.H (hashedJson h all v ++ hashedJson h all w) →
    json h all v = json h all w → v = w

theorem jsonList_inj {t : HashType} {n : Nat} (ih : JsonInj h t n) : ∀ (l r : List (Value N))
    (all : Bool), sizeOf l ≤ n → (∀ v ∈ l, Clear t v) →
    (∀ v ∈ r, Clear t v) → NoCollision h.H (hashedJsonList h all l ++ hashedJsonList h all r) →
    jsonList h all l = jsonList h all r → l = r
  | [], [], _, _, _, _, _, _ => rfl
  | [], _ :: _, _, _, _, _, _, e => by simp [jsonList] at e
  | _ :: _, [], _, _, _, _, _, e => by simp [jsonList] at e
  | v :: l, w :: r, all, hs, h1, h2, hn, e => by
    simp only [List.cons.sizeOf_spec] at hs
    simp only [jsonList, List.cons.injEq] at e
    simp only [hashedJsonList] at hn
    rw [ih v w all (by omega) (h1 v (by simp)) (h2 w (by simp))
        (hn.mono (fun s hs => by simp only [List.mem_append] at hs ⊢; tauto)) e.1,
      jsonList_inj ih l r all (by omega) (fun x hx => h1 x (by simp [hx]))
        (fun x hx => h2 x (by simp [hx]))
        (hn.mono (fun s hs => by simp only [List.mem_append] at hs ⊢; tauto)) e.2]

theorem jsonItems_inj {t : HashType} {n : Nat} (ih : JsonInj h t n) : ∀ (l r : List (Str × Value N))
    (all : Bool), sizeOf l ≤ n → (∀ v ∈ l, Clear t v.2) →
    (∀ v ∈ r, Clear t v.2) → NoCollision h.H (hashedJsonItems h all l ++ hashedJsonItems h all r) →
    jsonItems h all l = jsonItems h all r → l = r
  | [], [], _, _, _, _, _, _ => rfl
  | [], _ :: _, _, _, _, _, _, e => by simp [jsonItems] at e
  | _ :: _, [], _, _, _, _, _, e => by simp [jsonItems] at e
  | (k, v) :: l, (k', w) :: r, all, hs, h1, h2, hn, e => by
    simp only [List.cons.sizeOf_spec, Prod.mk.sizeOf_spec] at hs
    simp only [jsonItems, List.cons.injEq, Prod.mk.injEq] at e
    simp only [hashedJsonItems] at hn
    rw [ih v w all (by omega) (h1 (k, v) (by simp)) (h2 (k', w) (by simp))
        (hn.mono (fun s hs => by simp only [List.mem_append] at hs ⊢; tauto)) e.1.2, e.1.1,
      jsonItems_inj ih l r all (by omega) (fun x hx => h1 x (by simp [hx]))
        (fun x hx => h2 x (by simp [hx]))
        (hn.mono (fun s hs => by simp only [List.mem_append] at hs ⊢; tauto)) e.2]

theorem nodeJson_cases (ho : h.OK) (all : Bool) {i j : Json (N ⊕ Nat)} {S : List Str}
    (hi : all = false → '#' :: h.dump i ∈ S) (hj : all = false → '#' :: h.dump j ∈ S)
    (hn : NoCollision h.H S) (e : nodeJson h all i = nodeJson h all j) : i = j := by
  cases all with
  | true => simpa only [nodeJson, if_true] using e
  | false => exact ref_inj h ho (hn _ (hi rfl) _ (hj rfl)) e

theorem json_inj_node {t : HashType} {n : Nat} (ho : h.OK) (ih : JsonInj h t n) {v w : Value N}
    {all : Bool} (hv : sizeOf v ≤ n + 1) (hk : kind v = 7) (hk' : kind w = 7) (cv : Clear t v)
    (cw : Clear t w) (hn : NoCollision h.H (hashedJson h all v ++ hashedJson h all w))
    (e : json h all v = json h all w) : v = w := by
  cases cv <;> first | exact absurd hk (Nat.ne_of_beq_eq_false rfl) | skip
  · rename_i v a
    simp only [Val.valueNode.sizeOf_spec] at hv
    cases cw <;> first | exact absurd hk' (Nat.ne_of_beq_eq_false rfl) | skip
    · rename_i w b
      have e' := nodeJson_cases h ho all (fun ha => by simp [hashedJson, ha])
        (fun ha => by simp [hashedJson, ha]) hn e
      simp only [valueNodeJson, Json.obj.injEq, List.cons.injEq, Prod.mk.injEq, true_and,
        and_true] at e'
      simp only [hashedJson] at hn
      rw [ih v w true (by omega) a b
        (hn.mono (fun s hs => by simp only [List.mem_append] at hs ⊢; tauto)) e']
    · have e' := nodeJson_cases h ho all (fun ha => by simp [hashedJson, ha])
        (fun ha => by simp [hashedJson, ha]) hn e
      simp only [valueNodeJson, absNodeJson, Json.obj.injEq, List.cons.injEq, Prod.mk.injEq] at e'
      exact absurd e'.1.1 (by decide)
  · rename_i ty s u a1 a2
    simp only [Val.absNode.sizeOf_spec] at hv
    cases cw <;> first | exact absurd hk' (Nat.ne_of_beq_eq_false rfl) | skip
    · have e' := nodeJson_cases h ho all (fun ha => by simp [hashedJson, ha])
        (fun ha => by simp [hashedJson, ha]) hn e
      simp only [valueNodeJson, absNodeJson, Json.obj.injEq, List.cons.injEq, Prod.mk.injEq] at e'
      exact absurd e'.1.1 (by decide)
    · rename_i ty' s' u' b1 b2
      have e' := nodeJson_cases h ho all (fun ha => by simp [hashedJson, ha])
        (fun ha => by simp [hashedJson, ha]) hn e
      simp only [absNodeJson, Json.obj.injEq, List.cons.injEq, Prod.mk.injEq, true_and,
        and_true, Json.str.injEq] at e'
      simp only [hashedJson] at hn
      rw [e'.1, ih s s' true (by omega) a1 b1
          (hn.mono (fun s hs => by simp only [List.mem_append] at hs ⊢; tauto)) e'.2.1,
        ih u u' false (by omega) a2 b2
          (hn.mono (fun s hs => by simp only [List.mem_append] at hs ⊢; tauto)) e'.2.2]

theorem json_inj_step {t : HashType} {n : Nat} (ho : h.OK) (ih : JsonInj h t n) :
    JsonInj h t (n + 1) := by
  intro v w all hv cv cw hn e
  have hk : kind v = kind w := by rw [← kind_json h t all cv, ← kind_json h t all cw, e]
  by_cases h7 : kind v = 7
  · exact json_inj_node h ho ih hv h7 (hk ▸ h7) cv cw hn e
  cases cv with
  | none => cases cw <;> first | rfl | exact absurd hk (Nat.ne_of_beq_eq_false rfl)
  | bool b =>
    cases cw <;> first | exact absurd hk (Nat.ne_of_beq_eq_false rfl) | skip
    simp only [json, Json.bool.injEq] at e
    rw [e]
  | num b =>
    cases cw <;> first | exact absurd hk (Nat.ne_of_beq_eq_false rfl) | skip
    simp only [json, Json.num.injEq, Sum.inl.injEq] at e
    rw [e]
  | str b =>
    cases cw <;> first | exact absurd hk (Nat.ne_of_beq_eq_false rfl) | skip
    simp only [json, Json.str.injEq] at e
    rw [e]
  | name b =>
    cases cw <;> first | exact absurd hk (Nat.ne_of_beq_eq_false rfl) | skip
    rw [Names.toJson_inj e]
  | art h1 h2 =>
    cases cw <;> first | exact absurd hk (Nat.ne_of_beq_eq_false rfl) | skip
    rename_i h3 h4
    rw [← h2, ← h4, toJson_inj (N := N) h1 h3 e]
  | result a1 a2 a3 =>
    cases cw <;> first | exact absurd hk (Nat.ne_of_beq_eq_false rfl) | skip
    rename_i b1 b2 b3
    simp only [Val.result.sizeOf_spec] at hv
    simp only [json, resultJson, Json.obj.injEq, List.cons.injEq, Prod.mk.injEq, true_and,
      and_true] at e
    simp only [hashedJson] at hn
    rw [ih _ _ false (by omega) a1 b1
        (hn.mono (fun s hs => by simp only [List.mem_append] at hs ⊢; tauto)) e.1,
      ih _ _ false (by omega) a2 b2
        (hn.mono (fun s hs => by simp only [List.mem_append] at hs ⊢; tauto)) e.2.1,
      ih _ _ false (by omega) a3 b3
        (hn.mono (fun s hs => by simp only [List.mem_append] at hs ⊢; tauto)) e.2.2]
  | valueNode a => exact absurd rfl h7
  | absNode a1 a2 => exact absurd rfl h7
  | list h1 h2 =>
    simp only [Val.list.sizeOf_spec] at hv
    cases cw <;> first | exact absurd hk (Nat.ne_of_beq_eq_false rfl) | skip
    rename_i h3 h4
    simp only [json, Json.arr.injEq] at e
    simp only [hashedJson] at hn
    rw [jsonList_inj h ih _ _ all (by omega) h1 h3 hn e]
  | map h1 h2 =>
    simp only [Val.map.sizeOf_spec] at hv
    cases cw <;> first | exact absurd hk (Nat.ne_of_beq_eq_false rfl) | skip
    rename_i h3 h4
    simp only [json, Json.obj.injEq] at e
    simp only [hashedJson] at hn
    rw [jsonItems_inj h ih _ _ all (by omega) h1 h3 hn e]

/-- The JSON determines the value. -/
theorem json_inj {t : HashType} (ho : h.OK) : ∀ n, JsonInj h t n
  | 0 => fun v w all hv => by cases v <;> simp at hv
  | n + 1 => json_inj_step h ho (json_inj ho n)

/-! ## C09 -/

/-- Values for which the identifier identifies the value: inside of results and nodes, no value that is
not an artifact, node, result, or name looks like one.  Other values are not restricted. -/
inductive Identified (t : HashType) : Value N → Prop where
  | list {l : List (Value N)} : (∀ v ∈ l, Identified t v) → Identified t (.list l)
  | map {m : List (Str × Value N)} : (∀ kv ∈ m, Identified t kv.2) → Identified t (.map m)
  | atom {v : Value N} : v.list? = none → v.map? = none → Clear t v → Identified t v

/-- First character of the hashed string. -/
def tag (s : Str) : Nat :=
  match s with
  | [] => 0
  | c :: _ =>
    if c = '[' then 1 else if c = '{' then 2 else if c = '@' then 3 else if c = '=' then 4
    else if c = '#' then 5 else if c = '$' then 6 else 0

/-- The tag for each alternative. -/
def tagOf : Value N → Nat
  | .list _ => 1
  | .map _ => 2
  | .art _ => 3
  | .result _ _ _ => 4
  | .valueNode _ => 5
  | .absNode _ _ _ => 5
  | .name _ => 6
  | _ => 0

theorem tag_preimage (ho : h.OK) (v : Value N) : tag (preimage h v) = tagOf v := by
  cases v with
  | bool b => cases b <;> rfl
  | num n =>
    obtain ⟨c, r, e, hc⟩ := ho.text.first (.inl n)
    have : preimage h (.num n) = c :: r := e
    rw [this]
    have hne : ∀ x : Char, (x.isDigit || x == '-') = false → c ≠ x := by
      rintro x hx rfl
      rw [hx] at hc
      cases hc
    simp only [tag, tagOf, if_neg (hne '[' (by decide)), if_neg (hne '{' (by decide)),
      if_neg (hne '@' (by decide)), if_neg (hne '=' (by decide)), if_neg (hne '#' (by decide)),
      if_neg (hne '$' (by decide))]
  | _ => rfl

theorem append_length_inj {a b c d : Str} (hl : a.length = c.length) (e : a ++ b = c ++ d) :
    a = c ∧ b = d := List.append_inj e hl

/-- What is to be shown for values up to some size. -/
def HashInj (h : Hashing N) (t : HashType) (n : Nat) : Prop :=
  ∀ (v w : Value N), sizeOf v ≤ n → Identified t v → Identified t w →
    NoCollision h.H (hashed h v ++ hashed h w) → hash h v = hash h w → v = w

theorem preimageList_inj {t : HashType} {n : Nat} (ho : h.OK) (ih : HashInj h t n) :
    ∀ (l r : List (Value N)), sizeOf l ≤ n → (∀ v ∈ l, Identified t v) →
    (∀ v ∈ r, Identified t v) → NoCollision h.H (hashedList h l ++ hashedList h r) →
    preimageList h l = preimageList h r → l = r := by
  obtain ⟨len, hpos, hlen⟩ := ho.length
  intro l
  induction l with
  | nil =>
    intro r _ _ _ _ e
    cases r with
    | nil => rfl
    | cons w r =>
      have := congrArg List.length e
      simp only [preimageList, List.length_nil, List.length_append, hlen] at this
      omega
  | cons v l ihl =>
    intro r hs h1 h2 hn e
    cases r with
    | nil =>
      have := congrArg List.length e
      simp only [preimageList, List.length_nil, List.length_append, hlen] at this
      omega
    | cons w r =>
      simp only [List.cons.sizeOf_spec] at hs
      simp only [preimageList] at e
      obtain ⟨e1, e2⟩ := append_length_inj (by rw [hlen, hlen]) e
      simp only [hashedList] at hn
      rw [ih v w (by omega) (h1 v (by simp)) (h2 w (by simp))
          (hn.mono (fun s hs => by simp only [List.mem_append] at hs ⊢; tauto)) e1,
        ihl r (by omega) (fun x hx => h1 x (by simp [hx])) (fun x hx => h2 x (by simp [hx]))
          (hn.mono (fun s hs => by simp only [List.mem_append] at hs ⊢; tauto)) e2]

theorem preimageItems_inj {t : HashType} {n : Nat} (ho : h.OK) (ih : HashInj h t n) :
    ∀ (l r : List (Str × Value N)), sizeOf l ≤ n → (∀ v ∈ l, Identified t v.2) →
    (∀ v ∈ r, Identified t v.2) → NoCollision h.H (hashedItems h l ++ hashedItems h r) →
    preimageItems h l = preimageItems h r → l = r := by
  obtain ⟨len, hpos, hlen⟩ := ho.length
  intro l
  induction l with
  | nil =>
    intro r _ _ _ _ e
    cases r with
    | nil => rfl
    | cons w r =>
      have := congrArg List.length e
      simp only [preimageItems, List.length_nil, List.length_append, hlen] at this
      omega
  | cons v l ihl =>
    obtain ⟨k, v⟩ := v
    intro r hs h1 h2 hn e
    cases r with
    | nil =>
      have := congrArg List.length e
      simp only [preimageItems, List.length_nil, List.length_append, hlen] at this
      omega
    | cons w r =>
      obtain ⟨k', w⟩ := w
      simp only [List.cons.sizeOf_spec, Prod.mk.sizeOf_spec] at hs
      simp only [preimageItems, List.append_assoc] at e
      obtain ⟨e0, e⟩ := append_length_inj (by rw [hlen, hlen]) e
      obtain ⟨e1, e2⟩ := append_length_inj (by rw [hlen, hlen]) e
      simp only [hashedItems] at hn
      have ek : k = k' := hn _ (by simp) _ (by simp) e0
      rw [ih v w (by omega) (h1 (k, v) (by simp)) (h2 (k', w) (by simp))
          (hn.mono (fun s hs => by
            simp only [List.mem_append, List.mem_cons] at hs ⊢; tauto)) e1, ek,
        ihl r (by omega) (fun x hx => h1 x (by simp [hx])) (fun x hx => h2 x (by simp [hx]))
          (hn.mono (fun s hs => by
            simp only [List.mem_append, List.mem_cons] at hs ⊢; tauto)) e2]

theorem preimage_mem (v : Value N) : preimage h v ∈ hashed h v := by
  cases v <;> simp [hashed]

theorem preimage_atom {v : Value N} (hl : v.list? = none) (hm : v.map? = none) :
    preimage h v = hashPrefix v ++ h.dump (json h true v) ∧
    hashed h v = preimage h v :: hashedJson h true v := by
  cases v <;> first | exact ⟨rfl, rfl⟩ | simp [Val.list?, Val.map?] at hl hm

theorem hashPrefix_eq {v w : Value N} (e : tagOf v = tagOf w) : hashPrefix v = hashPrefix w := by
  cases v <;> cases w <;>
    first | rfl | exact absurd e (Nat.ne_of_beq_eq_false rfl)

theorem hash_inj {t : HashType} (ho : h.OK) : ∀ n, HashInj h t n
  | 0 => fun v w hv => by cases v <;> simp at hv
  | n + 1 => by
    have ih := hash_inj (t := t) ho n
    intro v w hv iv iw hn e
    have ep : preimage h v = preimage h w :=
      hn _ (List.mem_append.mpr (Or.inl (preimage_mem h v))) _
        (List.mem_append.mpr (Or.inr (preimage_mem h w))) e
    have et : tagOf v = tagOf w := by rw [← tag_preimage h ho, ← tag_preimage h ho, ep]
    cases iv with
    | list h1 =>
      rename_i l
      cases w <;> first | exact absurd et (Nat.ne_of_beq_eq_false rfl) | skip
      rename_i r
      cases iw with
      | list h2 =>
        simp only [Val.list.sizeOf_spec] at hv
        simp only [preimage, List.cons.injEq, true_and] at ep
        simp only [hashed] at hn
        rw [preimageList_inj h ho ih l r (by omega) h1 h2
          (hn.mono (fun s hs => by simp only [List.mem_append, List.mem_cons] at hs ⊢; tauto)) ep]
      | atom h2 _ _ => exact nomatch h2
    | map h1 =>
      rename_i l
      cases w <;> first | exact absurd et (Nat.ne_of_beq_eq_false rfl) | skip
      rename_i r
      cases iw with
      | map h2 =>
        simp only [Val.map.sizeOf_spec] at hv
        simp only [preimage, List.cons.injEq, true_and] at ep
        simp only [hashed] at hn
        rw [preimageItems_inj h ho ih l r (by omega) h1 h2
          (hn.mono (fun s hs => by simp only [List.mem_append, List.mem_cons] at hs ⊢; tauto)) ep]
      | atom _ h2 _ => exact nomatch h2
    | atom h1 h2 h3 =>
      cases iw with
      | list _ => cases v <;> first | exact absurd et (Nat.ne_of_beq_eq_false rfl) | exact nomatch h1
      | map _ => cases v <;> first | exact absurd et (Nat.ne_of_beq_eq_false rfl) | exact nomatch h2
      | atom h4 h5 h6 =>
        obtain ⟨p1, p2⟩ := preimage_atom h h1 h2
        obtain ⟨p3, p4⟩ := preimage_atom h h4 h5
        rw [p1, p3, hashPrefix_eq et] at ep
        have ej := dump_inj h ho (List.append_cancel_left ep)
        rw [p2, p4] at hn
        exact json_inj h ho _ v w true hv h3 h6
          (hn.mono (fun s hs => by simp only [List.mem_append, List.mem_cons] at hs ⊢; tauto)) ej

/-- C09 (for other values it does not hold, see `C09_violation`): two values with the same identifier are
equal if the hash function has no collision among the strings hashed for them. -/
theorem C09_identifier_partial (ho : h.OK) (t : HashType) (v w : Value N) (hv : Identified t v)
    (hw : Identified t w) (hn : NoCollision h.H (hashed h v ++ hashed h w))
    (e : identifier h v = identifier h w) : v = w :=
  hash_inj h ho _ v w (Nat.le_refl _) hv hw hn (hexString_inj (ho.bytes _) (ho.bytes _) e)

/-- For the example: the first sixty characters of a string, filled up with blanks; no numbers. -/
def demoHashing : Hashing Empty where
  H := fun s => ((s.map (fun c => Char.ofNat (c.toNat % 256))) ++ List.replicate 60 ' ').take 60
  text := Sum.elim (fun e : Empty => nomatch e) decimal

theorem toNat_ofNat256 : ∀ n, n < 256 → (Char.ofNat n).toNat = n := by decide +kernel

theorem demoHashing_ok : demoHashing.OK where
  length := ⟨60, by decide, fun s => by simp [demoHashing]⟩
  bytes := by
    intro s c hc
    have := List.mem_of_mem_take hc
    simp only [List.mem_append, List.mem_map, List.mem_replicate] at this
    rcases this with ⟨d, _, rfl⟩ | ⟨_, rfl⟩
    · have hb : d.toNat % 256 < 256 := Nat.mod_lt _ (by decide)
      rw [toNat_ofNat256 _ hb]
      exact hb
    · decide
  text := decimal_numText

example : identifier demoHashing (.list [.art (.tree "t".toList), .str "a".toList])
    ≠ identifier demoHashing (.list [.art (.overlay "t".toList), .str "a".toList]) := fun e => by
  have hid : ∀ a : Desc, a.Valid .gitSHA1 → a.forget = a →
      Identified .gitSHA1 (.list [.art a, .str "a".toList] : Value Empty) := fun a h1 h2 =>
    .list (fun v hv => by
      simp only [List.mem_cons, List.not_mem_nil, or_false] at hv
      rcases hv with rfl | rfl
      · exact .atom rfl rfl (.art h1 h2)
      · exact .atom rfl rfl (.str _))
  have := C09_identifier_partial demoHashing demoHashing_ok .gitSHA1 _ _
    (hid (.tree "t".toList) trivial rfl) (hid (.overlay "t".toList) trivial rfl)
    (by unfold NoCollision; decide) e
  cases this

/-- C09 does not hold: a result providing an artifact has the same identifier as a result providing the
map that looks like it; a result providing a target name has the same one as a result providing the list
that looks like it. -/
theorem C09_violation :
    (let p := "a".toList
     let artifact : Value N := .map [("x".toList, .art (.loc p []))]
     let lookAlike : Value N := .map [("x".toList, .map [("data".toList,
        .map [("path".toList, .str p), ("repository".toList, .str [])]), ("type".toList, .str "LOCAL".toList)])]
     artifact ≠ lookAlike ∧
     identifier h (.result (.map []) artifact (.map [])) = identifier h (.result (.map []) lookAlike (.map []))) ∧
    (let name : Value N := .name (.anonymous ['a'] ['b'])
     let lookAlike : Value N := .list [.str ['#'], .str ['a'], .str ['b']]
     name ≠ lookAlike ∧ identifier h (.valueNode name) = identifier h (.valueNode lookAlike)) := by
  refine ⟨⟨?_, rfl⟩, ⟨?_, rfl⟩⟩
  · intro e
    injection e with e
    injection e with e _
    injection e with _ e
    cases e
  · intro e
    cases e

/-- C09 does not hold for numbers that are not finite: they are rendered as `null`, like `null` itself. -/
theorem C09_violation_infinite (n : N) (hinf : h.text (.inl n) = "null".toList) :
    (Val.num n : Value N) ≠ .none ∧ identifier h (.num n) = identifier h .none := by
  refine ⟨fun e => (nomatch e), ?_⟩
  have : h.dump (.num (.inl n)) = h.dump .null := hinf
  simp only [identifier, hash, preimage, hashPrefix, json, this]

end Verif.Expr
