import Verif.Expr.Props

/-!
# JSON encoding of values: C63
-/

namespace Verif.Expr

variable {N A : Type}

mutual
/-- expression.cpp:171-208 (`FromJson`). -/
def ofJson : Json N → Val N A
  | .null => .none
  | .bool b => .bool b
  | .num n => .num n
  | .str s => .str s
  | .arr l => .list (ofJsonList l)
  | .obj m => .map (ofJsonItems m)
/-- expression.cpp:186-194. -/
def ofJsonList : List (Json N) → List (Val N A)
  | [] => []
  | j :: t => ofJson j :: ofJsonList t
/-- expression.cpp:195-201; the keys of an object are sorted. -/
def ofJsonItems : List (Str × Json N) → List (Str × Val N A)
  | [] => []
  | (k, j) :: t => (k, ofJson j) :: ofJsonItems t
end

/-- Values without artifacts, results, nodes, and names. -/
inductive IsJson : Val N A → Prop where
  | none : IsJson .none
  | bool (b : Bool) : IsJson (.bool b)
  | num (n : N) : IsJson (.num n)
  | str (s : Str) : IsJson (.str s)
  | list {l : List (Val N A)} : (∀ v ∈ l, IsJson v) → IsJson (.list l)
  | map {m : Items N A} : (∀ kv ∈ m, IsJson kv.2) → IsJson (.map m)

theorem ofJson_toJson (n : Nat) : ∀ v : Val N A, sizeOf v ≤ n → IsJson v → ofJson (toJson v) = v := by
  induction n with
  | zero => intro v hv; cases v <;> simp at hv
  | succ n ih =>
    have ihl : ∀ l : List (Val N A), sizeOf l ≤ n → (∀ v ∈ l, IsJson v) →
        ofJsonList (toJsonList l) = l := by
      intro l
      induction l with
      | nil => intros; rfl
      | cons v t iht =>
        intro hs hj
        simp only [List.cons.sizeOf_spec] at hs
        simp only [toJsonList, ofJsonList]
        rw [ih v (by omega) (hj v (by simp)), iht (by omega) (fun x hx => hj x (by simp [hx]))]
    have ihm : ∀ l : Items N A, sizeOf l ≤ n → (∀ v ∈ l, IsJson v.2) →
        ofJsonItems (toJsonItems l) = l := by
      intro l
      induction l with
      | nil => intros; rfl
      | cons v t iht =>
        obtain ⟨k, v⟩ := v
        intro hs hj
        simp only [List.cons.sizeOf_spec, Prod.mk.sizeOf_spec] at hs
        simp only [toJsonItems, ofJsonItems]
        rw [ih v (by omega) (hj (k, v) (by simp)), iht (by omega) (fun x hx => hj x (by simp [hx]))]
    intro v hv hj
    cases hj with
    | list h =>
      simp only [Val.list.sizeOf_spec] at hv
      simp only [toJson, ofJson]
      rw [ihl _ (by omega) h]
    | map h =>
      simp only [Val.map.sizeOf_spec] at hv
      simp only [toJson, ofJson]
      rw [ihm _ (by omega) h]
    | _ => rfl

/-- C63: for a value without artifacts, results, nodes and names, the value of a `json_encode` expression
is the text of a JSON value from which the value is read back. -/
theorem C63_json_encode (O : Ops N A) (hp : O.provided "json_encode".toList = none) (f : Fn N A)
    (m : Items N A) (e : Val N A) (ρ : Env N A) (v : Val N A) (hj : IsJson v)
    (ht : assoc "type".toList m = some (lit "json_encode")) (he : assoc "$1".toList m = some e)
    (hv : Evals O f e ρ (.ok v)) :
    ∃ j : Json N, Evals O f (.map m) ρ (.ok (.str (Json.dump O.text Json.compact 0 j))) ∧
      ofJson j = v := by
  refine ⟨toJson v, ?_, ofJson_toJson _ v (Nat.le_refl _) hj⟩
  refine evals_of_unary O f (c := jsonEncodeExpr O) ρ ht (by decide) hp (by rfl) hv (fun ev h => ?_)
  simp only [jsonEncodeExpr, get, he, Option.getD_some, h, Res.bind, jsonEncode]

/-- C63: different values are encoded differently. -/
theorem C63_injective (O : Ops N A) (hN : Json.NumText O.text)
    (hp : O.provided "json_encode".toList = none) (f : Fn N A)
    (m m' : Items N A) (e e' : Val N A) (ρ : Env N A) (v v' : Val N A) (hj : IsJson v) (hj' : IsJson v')
    (ht : assoc "type".toList m = some (lit "json_encode")) (he : assoc "$1".toList m = some e)
    (ht' : assoc "type".toList m' = some (lit "json_encode")) (he' : assoc "$1".toList m' = some e')
    (hv : Evals O f e ρ (.ok v)) (hv' : Evals O f e' ρ (.ok v')) (r : Res (Val N A))
    (h : Evals O f (.map m) ρ r) (h' : Evals O f (.map m') ρ r) : v = v' := by
  obtain ⟨j, h1, h2⟩ := C63_json_encode O hp f m e ρ v hj ht he hv
  obtain ⟨j', h3, h4⟩ := C63_json_encode O hp f m' e' ρ v' hj' ht' he' hv'
  have uniq : ∀ {e : Val N A} {r r' : Res (Val N A)}, Evals O f e ρ r → Evals O f e ρ r' → r = r' := by
    rintro e r r' ⟨n, hn⟩ ⟨n', hn'⟩
    rw [← hn (n + n') (by omega), ← hn' (n + n') (by omega)]
  have e1 := (uniq h1 h).trans (uniq h' h3)
  injection e1 with e1
  injection e1 with e1
  rw [← h2, ← h4, Json.dump_inj hN Json.compact_ok e1]

theorem demo_numText : Json.NumText demoOps.text where
  inj := fun _ _ h => decimal_inj h
  chars := fun n c hc => by
    unfold Json.isNum
    rw [decimal_isDigit n c hc]
    rfl
  first := fun n => by
    obtain ⟨d, t, hd, e⟩ := decimal_head n
    exact ⟨digitChar d, t, e, by rw [(digitChar_cases d hd).1]; rfl⟩

example (ρ : Env Nat Unit) : ∃ j : Json Nat, Evals demoOps (demoFn .none)
      (.map [("$1".toList, quoted (.list [.num 1, lit "a\"b"])), ("type".toList, lit "json_encode")]) ρ
      (.ok (.str (Json.dump decimal Json.compact 0 j))) ∧
      (ofJson j : Val Nat Unit) = .list [.num 1, lit "a\"b"] :=
  C63_json_encode demoOps rfl _ _ _ ρ _ (.list (fun v hv => by
    simp only [List.mem_cons, List.not_mem_nil, or_false] at hv
    rcases hv with rfl | rfl
    · exact .num 1
    · exact .str _)) (by rfl) (by rfl) (evals_quoted _ _ _)

example (ρ : Env Nat Unit) (r : Res (Val Nat Unit))
    (h : Evals demoOps (demoFn .none)
      (.map [("$1".toList, quoted (.num 1)), ("type".toList, lit "json_encode")]) ρ r) :
    ¬ Evals demoOps (demoFn .none)
      (.map [("$1".toList, quoted (lit "1")), ("type".toList, lit "json_encode")]) ρ r := fun h' => by
  have := C63_injective demoOps demo_numText rfl _ _ _ _ _ ρ (.num 1) (lit "1") (.num 1) (.str _)
    (by rfl) (by rfl) (by rfl) (by rfl) (evals_quoted _ _ _) (evals_quoted _ _ _) r h h'
  cases this

end Verif.Expr
