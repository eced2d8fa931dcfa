import Verif.Expr.Spec
import Verif.Expr.Theory
import Mathlib.Data.List.Lex
import Mathlib.Data.Char
import Mathlib.Data.List.Nodup

/-!
# Properties of expressions: C05 – C08, C10, C59
-/

namespace Verif.Expr

variable {N A : Type}

/-! ## C59: evaluation terminates -/

/-- C59: the evaluation of every expression has exactly one outcome, a value or an exception. -/
theorem C59_evaluation_terminates (O : Ops N A) (f : Fn N A) (e : Val N A) (ρ : Env N A) :
    ∃ r, r ≠ .timeout ∧ Evals O f e ρ r ∧ ∀ r', Evals O f e ρ r' → r' = r := by
  obtain ⟨n, hn⟩ := eval_terminates O (sizeOf f) f (Nat.le_refl _) e
  refine ⟨eval O n f e ρ, hn n (Nat.le_refl _) ρ, ⟨n, fun k hk => ?_⟩, fun r' ⟨n', h'⟩ => ?_⟩
  · exact eval_mono_le O hk f e ρ (hn n (Nat.le_refl _) ρ)
  · rw [← h' (n + n') (by omega)]
    exact eval_mono_le O (Nat.le_add_right n n') f e ρ (hn n (Nat.le_refl _) ρ)

/-- C59: one bound on the fuel serves all environments. -/
theorem C59_uniform (O : Ops N A) (f : Fn N A) (e : Val N A) :
    ∃ n, ∀ ρ k, n ≤ k → eval O k f e ρ = eval O n f e ρ ∧ eval O n f e ρ ≠ .timeout := by
  obtain ⟨n, hn⟩ := eval_terminates O (sizeOf f) f (Nat.le_refl _) e
  exact ⟨n, fun ρ k hk => ⟨eval_mono_le O hk f e ρ (hn n (Nat.le_refl _) ρ),
    hn n (Nat.le_refl _) ρ⟩⟩

example : ∃ r, r ≠ .timeout ∧ Evals demoOps (demoFn .none)
    (.map [("$1".toList, quoted (.list [.num 1, .num 2])), ("type".toList, lit "+")]) (fun _ => .none) r :=
  let ⟨r, h1, h2, _⟩ := C59_evaluation_terminates demoOps (demoFn .none) _ _
  ⟨r, h1, h2⟩

/-! ## C05: locality -/

/-- C05: environments agreeing on the free variables give the same outcome. -/
theorem C05_locality (O : Ops N A) (f : Fn N A) (e : Val N A) (ρ ρ' : Env N A)
    (h : ∀ x, Free O f x e → ρ x = ρ' x) (r : Res (Val N A)) :
    Evals O f e ρ r ↔ Evals O f e ρ' r := by
  constructor
  · rintro ⟨n, hn⟩
    exact ⟨n, fun k hk => by rw [← eval_local O k f e ρ ρ' h]; exact hn k hk⟩
  · rintro ⟨n, hn⟩
    exact ⟨n, fun k hk => by rw [eval_local O k f e ρ ρ' h]; exact hn k hk⟩

/-- C05: the result of a function only depends on its declared variables. -/
theorem C05_function (O : Ops N A) (f : Fn N A) (ρ ρ' : Env N A)
    (h : ∀ x ∈ f.vars, ρ x = ρ' x) (n : Nat) : evaluate O n f ρ = evaluate O n f ρ' := by
  have : ρ.prune f.vars = ρ'.prune f.vars := by
    funext x
    unfold Env.prune
    split
    · exact h x ‹_›
    · rfl
  unfold evaluate
  rw [this]

/-- `let* x = y in x`: the value depends on `y` only, not on the outer `x`. -/
example (ρ ρ' : Env Nat Unit) (h : ρ "y".toList = ρ' "y".toList) (r : Res (Val Nat Unit)) :
    let x : Val Nat Unit := .map [("name".toList, lit "x"), ("type".toList, lit "var")]
    let y : Val Nat Unit := .map [("name".toList, lit "y"), ("type".toList, lit "var")]
    let e : Val Nat Unit := .map [("bindings".toList, .list [.list [lit "x", y]]),
      ("body".toList, x), ("type".toList, lit "let*")]
    Evals demoOps (demoFn .none) e ρ r ↔ Evals demoOps (demoFn .none) e ρ' r := by
  intro x y e
  refine C05_locality _ _ _ _ _ (fun z hz => ?_) r
  have hvar : ∀ n : String, Free demoOps (demoFn .none) z
      (.map [("name".toList, lit n), ("type".toList, lit "var")]) → z = n.toList := by
    intro n hf
    cases hf with
    | lookup ht hm =>
      cases ht
      exact List.mem_singleton.mp hm
    | sub ht hm _ _ =>
      cases ht
      exact absurd hm (by simp [subterms, demoOps, scopes, assoc, plain, field])
  simp only [e] at hz
  cases hz with
  | lookup ht hm => cases ht; exact absurd hm (by simp [lookedUp, demoOps])
  | sub ht hm hb hf =>
    cases ht
    have hm' : (_, _) ∈ [([], y), (["x".toList], x)] := hm
    simp only [List.mem_cons, Prod.mk.injEq, List.not_mem_nil, or_false] at hm'
    rcases hm' with ⟨rfl, rfl⟩ | ⟨rfl, rfl⟩
    · rw [hvar "y" hf]; exact h
    · exact absurd (hvar "x" hf) (fun e => hb (by rw [e]; exact List.mem_singleton_self _))

example (ρ ρ' : Env Nat Unit) (h : ρ "x".toList = ρ' "x".toList) :
    evaluate demoOps 5 (.mk ["x".toList] [] (.map [("name".toList, lit "x"),
        ("type".toList, lit "var")])) ρ
      = evaluate demoOps 5 (.mk ["x".toList] [] (.map [("name".toList, lit "x"),
        ("type".toList, lit "var")])) ρ' :=
  C05_function _ _ _ _ (fun x hx => by rw [List.mem_singleton.mp hx]; exact h) 5

/-! ## Evaluation of built-in constructs -/

theorem eval_builtIn (O : Ops N A) (f : Fn N A) (n : Nat) {m : Items N A} {ty : Str}
    {c : Construct N A} (ρ : Env N A) (ht : assoc "type".toList m = some (.str ty))
    (hcall : ty ≠ "CALL_EXPRESSION".toList) (hp : O.provided ty = none)
    (hc : assoc ty (builtIns O) = some c) :
    eval O (n + 1) f (.map m) ρ = c (eval O n f) m ρ := by
  simp only [eval, ht, Res.ofOption, Res.bind, Val.str?, if_neg hcall, hp, hc]

theorem mapRes_str (ws : List Str) :
    mapRes (fun e : Val N A => Res.ofOption e.str?) (ws.map .str) = .ok ws := by
  induction ws with
  | nil => rfl
  | cons w t ih =>
    simp only [List.map_cons, mapRes, ih]
    rfl

/-- A construct applied to one evaluated argument. -/
theorem evals_of_unary (O : Ops N A) (f : Fn N A) {m : Items N A} {ty : Str}
    {c : Construct N A} {e v : Val N A} {r : Res (Val N A)} (ρ : Env N A)
    (ht : assoc "type".toList m = some (.str ty))
    (hcall : ty ≠ "CALL_EXPRESSION".toList) (hp : O.provided ty = none)
    (hc : assoc ty (builtIns O) = some c)
    (hv : Evals O f e ρ (.ok v)) (h : ∀ ev : Ev N A, ev e ρ = .ok v → c ev m ρ = r) :
    Evals O f (.map m) ρ r := by
  obtain ⟨n, hn⟩ := hv
  refine ⟨n + 1, fun k hk => ?_⟩
  obtain ⟨j, rfl⟩ : ∃ j, k = j + 1 := ⟨k - 1, by omega⟩
  rw [eval_builtIn O f j ρ ht hcall hp hc]
  exact h _ (hn j (by omega))

theorem evals_quoted (f : Fn Nat Unit) (v : Val Nat Unit) (ρ : Env Nat Unit) :
    Evals demoOps f (quoted v) ρ (.ok v) := by
  refine ⟨1, fun k hk => ?_⟩
  obtain ⟨j, rfl⟩ : ∃ j, k = j + 1 := ⟨k - 1, by omega⟩
  rw [quoted, eval_builtIn demoOps f j (c := quoteExpr) (ty := "'".toList) ρ (by rfl) (by decide) rfl
    (by rfl)]
  rfl

/-! ## C06: `join_cmd` -/

theorem shellWords_escape (s : Str) : ∀ (cur r : Str),
    shellWordsGo .single (some cur) (escapeQuotes s ++ '\'' :: r)
      = shellWordsGo .plain (some (cur ++ s)) r := by
  induction s with
  | nil => intro cur r; simp [escapeQuotes, shellWordsGo]
  | cons c t ih =>
    intro cur r
    have he : escapeQuotes (c :: t) = (if c = '\'' then "'\\''".toList else [c]) ++ escapeQuotes t := by
      simp [escapeQuotes]
    rw [he]
    by_cases hc : c = '\''
    · subst hc
      rw [if_pos rfl]
      have hl : "'\\''".toList = ['\'', '\\', '\'', '\''] := rfl
      rw [hl]
      simp only [List.cons_append, List.nil_append]
      rw [shellWordsGo, if_pos rfl, shellWordsGo, if_neg (by decide), if_pos rfl, shellWordsGo,
        if_neg (by decide), shellWordsGo, if_pos rfl]
      simp only [Option.getD_some]
      rw [ih]
      simp
    · rw [if_neg hc]
      simp only [List.cons_append, List.nil_append]
      rw [shellWordsGo, if_neg hc, Option.getD_some, ih]
      simp

theorem shellWords_quote (s r : Str) :
    shellWordsGo .plain none (shellQuote s ++ r) = shellWordsGo .plain (some s) r := by
  unfold shellQuote
  simp only [List.cons_append, List.append_assoc, List.nil_append]
  rw [shellWordsGo, if_pos rfl]
  exact shellWords_escape s [] r

theorem shellWords_join : ∀ ws : List Str,
    shellWords (intercalate " ".toList (ws.map shellQuote)) = some ws
  | [] => rfl
  | [w] => by
    have := shellWords_quote w []
    simp only [List.append_nil] at this
    simp only [List.map, intercalate, shellWords, this]
    rfl
  | w :: v :: t => by
    have hl : " ".toList = [' '] := rfl
    have ih := shellWords_join (v :: t)
    simp only [shellWords] at ih ⊢
    simp only [List.map_cons, intercalate, List.append_assoc] at ih ⊢
    rw [shellWords_quote]
    conv_lhs => rw [hl]
    simp only [List.cons_append, List.nil_append]
    rw [shellWordsGo, if_neg (by decide), if_neg (by decide), if_pos (Or.inl rfl), ← hl, ih]
    rfl

/-- C06: the value of a `join_cmd` expression is a command line that the shell splits into exactly the
given words. -/
theorem C06_join_cmd (O : Ops N A) (hp : O.provided "join_cmd".toList = none) (f : Fn N A)
    (m : Items N A) (e : Val N A) (ρ : Env N A) (ws : List Str)
    (ht : assoc "type".toList m = some (lit "join_cmd")) (he : assoc "$1".toList m = some e)
    (hv : Evals O f e ρ (.ok (.list (ws.map .str)))) :
    ∃ s, Evals O f (.map m) ρ (.ok (.str s)) ∧ shellWords s = some ws := by
  refine ⟨intercalate " ".toList (ws.map shellQuote), ?_, shellWords_join ws⟩
  refine evals_of_unary O f (c := joinCmdExpr) ρ ht (by decide) hp (by rfl) hv (fun ev h => ?_)
  simp only [joinCmdExpr, get, he, Option.getD_some, h, Res.bind, join, mapRes_str, if_true]

example (ρ : Env Nat Unit) : ∃ s, Evals demoOps (demoFn .none)
      (.map [("$1".toList, quoted (.list [lit "it's", lit "", lit "a b"])),
        ("type".toList, lit "join_cmd")]) ρ (.ok (.str s)) ∧
      shellWords s = some ["it's".toList, [], "a b".toList] :=
  C06_join_cmd demoOps rfl _ _ _ ρ ["it's".toList, [], "a b".toList] (by rfl) (by rfl)
    (evals_quoted _ _ _)

/-! ## C07: `nub_left`, `nub_right` -/

theorem nubGo_append (O : Ops N A) : ∀ (a b : List (Val N A)) (S : List Str),
    nubGo O S (a ++ b) = nubGo O S a ++ nubGo O ((a.map O.hash).reverse ++ S) b := by
  intro a
  induction a with
  | nil => intro b S; rfl
  | cons v t ih =>
    intro b S
    have hcongr : ∀ (l : List (Val N A)) (S S' : List Str), (∀ x, x ∈ S ↔ x ∈ S') →
        nubGo O S l = nubGo O S' l := by
      intro l
      induction l with
      | nil => intros; rfl
      | cons w l ihl =>
        intro S S' h
        simp only [nubGo, h]
        split
        · exact ihl _ _ h
        · rw [ihl (O.hash w :: S) (O.hash w :: S') (by simp [h])]
    simp only [List.cons_append, nubGo, List.map_cons, List.reverse_cons, List.append_assoc]
    split
    · rename_i hv
      rw [ih]
      congr 1
      refine hcongr _ _ _ (fun x => ?_)
      simp only [List.mem_append, List.mem_cons, List.nil_append]
      constructor
      · rintro (h | h)
        · exact Or.inl h
        · exact Or.inr (Or.inr h)
      · rintro (h | h | h)
        · exact Or.inl h
        · exact Or.inr (h ▸ hv)
        · exact Or.inr h
    · rw [ih]
      simp

theorem nubGo_first (O : Ops N A) (l : List (Val N A)) :
    nubGo O [] l = entriesWhere l (FirstAt O l) := by
  have key : ∀ (t pre : List (Val N A)) (S : List Str), l = pre ++ t →
      (∀ x, x ∈ S ↔ x ∈ pre.map O.hash) →
      nubGo O S t
        = ((t.zipIdx pre.length).filter (fun vi => decide (FirstAt O l vi.2 vi.1))).map Prod.fst := by
    intro t
    induction t with
    | nil => intros; rfl
    | cons v t ih =>
      intro pre S hl hS
      have htake : l.take pre.length = pre := by rw [hl]; simp
      have hf : FirstAt O l pre.length v ↔ ¬ O.hash v ∈ S := by
        unfold FirstAt
        rw [htake, hS]
        simp only [List.mem_map, not_exists, not_and]
      rw [List.zipIdx_cons, List.filter_cons, nubGo]
      have hl' : l = (pre ++ [v]) ++ t := by rw [hl]; simp
      by_cases hv : O.hash v ∈ S
      · rw [if_pos hv, if_neg (by simp [hf, hv])]
        have := ih (pre ++ [v]) S hl' (fun x => by
          rw [hS]
          simp only [List.map_append, List.map_cons, List.map_nil, List.mem_append,
            List.mem_singleton]
          constructor
          · exact Or.inl
          · rintro (h | h)
            · exact h
            · rw [h]; exact (hS _).mp hv)
        rw [this]
        simp
      · rw [if_neg hv, if_pos (by simp [hf, hv])]
        have := ih (pre ++ [v]) (O.hash v :: S) hl' (fun x => by
          simp only [List.mem_cons, hS, List.map_append, List.map_cons, List.map_nil,
            List.mem_append]
          constructor
          · rintro (h | h)
            · exact Or.inr (Or.inl h)
            · exact Or.inl h
          · rintro (h | h | h)
            · exact Or.inr h
            · exact Or.inl h
            · simp at h)
        rw [this]
        simp
  exact key l [] [] rfl (by simp)

theorem nubGo_last (O : Ops N A) (l : List (Val N A)) :
    (nubGo O [] l.reverse).reverse = entriesWhere l (LastAt O l) := by
  have key : ∀ (t pre : List (Val N A)), l = pre ++ t →
      (nubGo O [] t.reverse).reverse
        = ((t.zipIdx pre.length).filter (fun vi => decide (LastAt O l vi.2 vi.1))).map Prod.fst := by
    intro t
    induction t with
    | nil => intros; rfl
    | cons v t ih =>
      intro pre hl
      have hdrop : l.drop (pre.length + 1) = t := by rw [hl]; simp [List.drop_append]
      have hf : LastAt O l pre.length v ↔ ¬ O.hash v ∈ t.map O.hash := by
        unfold LastAt
        rw [hdrop]
        simp only [List.mem_map, not_exists, not_and]
      have hl' : l = (pre ++ [v]) ++ t := by rw [hl]; simp
      rw [List.zipIdx_cons, List.filter_cons, List.reverse_cons, nubGo_append, List.reverse_append]
      have ih' := ih (pre ++ [v]) hl'
      rw [List.length_append, List.length_singleton] at ih'
      rw [ih']
      by_cases hv : O.hash v ∈ t.map O.hash
      · rw [if_neg (by simp only [hf, decide_eq_true_eq]; exact fun h => h hv)]
        simp only [nubGo]
        rw [if_pos (by simpa using hv)]
        rfl
      · rw [if_pos (by simp only [hf, decide_eq_true_eq]; exact hv)]
        simp only [nubGo]
        rw [if_neg (by simpa using hv)]
        rfl
  exact key l [] rfl

/-- C07: `nub_left` keeps exactly the first occurrences, in order. -/
theorem C07_nub_left (O : Ops N A) (hp : O.provided "nub_left".toList = none) (f : Fn N A)
    (m : Items N A) (e : Val N A) (ρ : Env N A) (l : List (Val N A))
    (ht : assoc "type".toList m = some (lit "nub_left")) (he : assoc "$1".toList m = some e)
    (hv : Evals O f e ρ (.ok (.list l))) (hc : (Val.list l).cacheable = true) :
    Evals O f (.map m) ρ (.ok (.list (entriesWhere l (FirstAt O l)))) := by
  refine evals_of_unary O f (c := unary (nubLeft O)) ρ ht (by decide) hp (by rfl) hv
    (fun ev h => ?_)
  simp only [unary, argument, he, Res.ofOption, Res.bind, h, nubLeft, Val.list?, hc, if_true,
    ← nubGo_first]
  cases l <;> rfl

/-- C07: `nub_right` keeps exactly the last occurrences, in order. -/
theorem C07_nub_right (O : Ops N A) (hp : O.provided "nub_right".toList = none) (f : Fn N A)
    (m : Items N A) (e : Val N A) (ρ : Env N A) (l : List (Val N A))
    (ht : assoc "type".toList m = some (lit "nub_right")) (he : assoc "$1".toList m = some e)
    (hv : Evals O f e ρ (.ok (.list l))) (hc : (Val.list l).cacheable = true) :
    Evals O f (.map m) ρ (.ok (.list (entriesWhere l (LastAt O l)))) := by
  refine evals_of_unary O f (c := unary (nubRight O)) ρ ht (by decide) hp (by rfl) hv
    (fun ev h => ?_)
  simp only [unary, argument, he, Res.ofOption, Res.bind, h, nubRight, Val.list?, hc, if_true,
    ← nubGo_last]
  cases l <;> rfl

theorem entriesWhere_sublist (l : List (Val N A)) (p : Nat → Val N A → Prop)
    [∀ i v, Decidable (p i v)] : (entriesWhere l p).Sublist l := by
  have h := (List.filter_sublist (p := fun vi : Val N A × Nat => decide (p vi.2 vi.1))
    (l := l.zipIdx)).map Prod.fst
  rwa [List.zipIdx_map_fst] at h

theorem mem_nubGo (O : Ops N A) : ∀ (l : List (Val N A)) (S : List Str) (h : Str),
    h ∈ (nubGo O S l).map O.hash ↔ h ∈ l.map O.hash ∧ h ∉ S := by
  intro l
  induction l with
  | nil => simp [nubGo]
  | cons v t ih =>
    intro S h
    simp only [nubGo]
    split
    · rename_i hv
      rw [ih]
      simp only [List.map_cons, List.mem_cons]
      constructor
      · rintro ⟨h1, h2⟩; exact ⟨Or.inr h1, h2⟩
      · rintro ⟨h1 | h1, h2⟩
        · exact absurd (h1 ▸ hv) h2
        · exact ⟨h1, h2⟩
    · rename_i hv
      simp only [List.map_cons, List.mem_cons, ih, not_or]
      constructor
      · rintro (h1 | ⟨h1, _, h2⟩)
        · exact ⟨Or.inl h1, h1 ▸ hv⟩
        · exact ⟨Or.inr h1, h2⟩
      · rintro ⟨h1 | h1, h2⟩
        · exact Or.inl h1
        · by_cases e : h = O.hash v
          · exact Or.inl e
          · exact Or.inr ⟨h1, e, h2⟩

theorem nodup_nubGo (O : Ops N A) : ∀ (l : List (Val N A)) (S : List Str),
    ((nubGo O S l).map O.hash).Nodup := by
  intro l
  induction l with
  | nil => simp [nubGo]
  | cons v t ih =>
    intro S
    simp only [nubGo]
    split
    · exact ih S
    · simp only [List.map_cons, List.nodup_cons]
      refine ⟨fun h => ?_, ih _⟩
      exact ((mem_nubGo O t _ _).mp h).2 (by simp)

/-- C07: if identifiers identify the values in the list (C09), both results have no duplicates and
contain exactly the entries of the list. -/
theorem C07_set (O : Ops N A) (l : List (Val N A))
    (hinj : ∀ v ∈ l, ∀ w ∈ l, O.hash v = O.hash w → v = w) :
    (entriesWhere l (FirstAt O l)).Nodup ∧ (entriesWhere l (LastAt O l)).Nodup ∧
    (∀ v, v ∈ entriesWhere l (FirstAt O l) ↔ v ∈ l) ∧
    (∀ v, v ∈ entriesWhere l (LastAt O l) ↔ v ∈ l) := by
  have mem : ∀ r : List (Val N A), r.Sublist l →
      (∀ h, h ∈ r.map O.hash ↔ h ∈ l.map O.hash) → ∀ v, v ∈ r ↔ v ∈ l := by
    intro r hr hh v
    refine ⟨fun hv => hr.subset hv, fun hv => ?_⟩
    obtain ⟨w, hw, e⟩ := List.mem_map.mp ((hh (O.hash v)).mpr (List.mem_map.mpr ⟨v, hv, rfl⟩))
    rw [← hinj w (hr.subset hw) v hv e]
    exact hw
  refine ⟨?_, ?_, ?_, ?_⟩
  · rw [← nubGo_first]
    exact List.Nodup.of_map _ (nodup_nubGo O l [])
  · rw [← nubGo_last]
    exact List.nodup_reverse.mpr (List.Nodup.of_map _ (nodup_nubGo O l.reverse []))
  · refine mem _ (entriesWhere_sublist _ _) (fun h => ?_)
    rw [← nubGo_first, mem_nubGo]
    simp
  · refine mem _ (entriesWhere_sublist _ _) (fun h => ?_)
    rw [← nubGo_last, List.map_reverse, List.mem_reverse, mem_nubGo]
    simp

example : (entriesWhere [lit "a", .num 1, lit "a"] (FirstAt demoOps [lit "a", .num 1, lit "a"])).length
      = 2 := by decide

example (ρ : Env Nat Unit) : Evals demoOps (demoFn .none)
    (.map [("$1".toList, quoted (.list [lit "a", .num 1, lit "a"])), ("type".toList, lit "nub_left")]) ρ
    (.ok (.list [lit "a", .num 1])) :=
  C07_nub_left demoOps rfl _ _ _ ρ [lit "a", .num 1, lit "a"] (by rfl) (by rfl) (evals_quoted _ _ _)
    (by rfl)

example (ρ : Env Nat Unit) : Evals demoOps (demoFn .none)
    (.map [("$1".toList, quoted (.list [lit "a", .num 1, lit "a"])), ("type".toList, lit "nub_right")]) ρ
    (.ok (.list [.num 1, lit "a"])) :=
  C07_nub_right demoOps rfl _ _ _ ρ [lit "a", .num 1, lit "a"] (by rfl) (by rfl) (evals_quoted _ _ _)
    (by rfl)

example : let l : List (Val Nat Unit) := [lit "a", .num 1, lit "a"]
    (entriesWhere l (FirstAt demoOps l)).Nodup := by
  intro l
  refine (C07_set demoOps l (fun v hv w hw h => ?_)).1
  have h1 : ¬ demoOps.hash (lit "a") = demoOps.hash (.num 1) := by decide
  simp only [l, List.mem_cons, List.not_mem_nil, or_false] at hv hw
  rcases hv with rfl | rfl | rfl <;> rcases hw with rfl | rfl | rfl <;>
    first | rfl | exact absurd h h1 | exact absurd h.symm h1

/-! ## C08: `enumerate` -/

theorem insertList_last {V : Type} (f : V → V → V) (k : Str) (v : V) : ∀ l : List (Str × V),
    (∀ p ∈ l, p.1 < k) → OMap.insertList f k v l = l ++ [(k, v)]
  | [], _ => rfl
  | (k', v') :: t, h => by
    have h1 : k' < k := h (k', v') (by simp)
    unfold OMap.insertList
    rw [if_neg (not_lt.mpr h1.le), if_neg (ne_of_gt h1),
      insertList_last f k v t (fun p hp => h p (by simp [hp]))]
    rfl

theorem enumerateFrom_eq : ∀ (l : List (Val N A)) (n : Nat) (r : Items N A), n + l.length ≤ 10 ^ 10 →
    (∀ p ∈ r, ∃ i, i < n ∧ p.1 = padded i) →
    enumerateFrom n l r = r ++ (l.zipIdx n).map (fun vi => (padded vi.2, vi.1))
  | [], n, r, _, _ => by simp [enumerateFrom]
  | v :: t, n, r, hn, hr => by
    rw [List.length_cons] at hn
    rw [enumerateFrom, assignItem, insertList_last, enumerateFrom_eq t (n + 1) _ (by omega)]
    · rw [List.zipIdx_cons]
      simp
    · intro p hp
      rcases List.mem_append.mp hp with h | h
      · obtain ⟨i, hi, e⟩ := hr p h
        exact ⟨i, by omega, e⟩
      · rw [List.mem_singleton.mp h]
        exact ⟨n, by omega, rfl⟩
    · intro p hp
      obtain ⟨i, hi, e⟩ := hr p hp
      rw [e]
      exact padded_lt hi (by omega)

/-- C08: the value of an `enumerate` expression is a map with ascending keys, the values in the order of
the keys being the entries of the list in order. -/
theorem C08_enumerate (O : Ops N A) (hp : O.provided "enumerate".toList = none) (f : Fn N A)
    (m : Items N A) (e : Val N A) (ρ : Env N A) (l : List (Val N A)) (hl : l.length ≤ 10 ^ 10)
    (ht : assoc "type".toList m = some (lit "enumerate")) (he : assoc "$1".toList m = some e)
    (hv : Evals O f e ρ (.ok (.list l))) :
    ∃ r, Evals O f (.map m) ρ (.ok (.map r)) ∧ Ascending r ∧ r.map Prod.snd = l := by
  refine ⟨enumerateFrom 0 l [], ?_, ?_, ?_⟩
  · refine evals_of_unary O f (c := unary enumerate) ρ ht (by decide) hp (by rfl) hv (fun ev h => ?_)
    simp only [unary, argument, he, Res.ofOption, Res.bind, h, enumerate, Val.list?]
  · have : ∀ (l : List (Val N A)) (n : Nat) (r : Items N A), Ascending r →
        Ascending (enumerateFrom n l r) := by
      intro l
      induction l with
      | nil => intro n r h; exact h
      | cons v t ih => intro n r h; exact ih _ _ (OMap.insertList_asc _ _ _ _ h)
    exact this l 0 [] List.Pairwise.nil
  · rw [enumerateFrom_eq l 0 [] (by omega) (by simp)]
    simp only [List.nil_append, List.map_map]
    exact List.zipIdx_map_fst 0 l

example (ρ : Env Nat Unit) : ∃ r, Evals demoOps (demoFn .none)
      (.map [("$1".toList, quoted (.list [lit "b", lit "a"])), ("type".toList, lit "enumerate")]) ρ
      (.ok (.map r)) ∧ Ascending r ∧ r.map Prod.snd = [lit "b", lit "a"] :=
  C08_enumerate demoOps rfl _ _ _ ρ [lit "b", lit "a"] (by decide) (by rfl) (by rfl)
    (evals_quoted _ _ _)

/-- C08: zero-padded indices, as used for the layers of tree overlays as well, are ordered as strings
exactly as they are as numbers. -/
theorem C08_padded {n m : Nat} (hn : n < 10 ^ 10) (hm : m < 10 ^ 10) : padded n < padded m ↔ n < m := by
  refine ⟨fun h => ?_, fun h => padded_lt h hm⟩
  rcases Nat.lt_trichotomy n m with h' | h' | h'
  · exact h'
  · subst h'; exact absurd h (lt_irrefl _)
  · exact absurd (h.trans (padded_lt h' hn)) (lt_irrefl _)

example : padded 9 < padded 10 := (C08_padded (by decide) (by decide)).mpr (by decide)

/-! ## C10: quasi-quotation -/

theorem expand_literal (ev : Ev N A) (ρ : Env N A) (n : Nat) :
    (∀ v : Val N A, sizeOf v ≤ n → Literal v → NoMapInList v →
      expand ev ρ v = .ok v ∧ (v.map? = none → expandEntry ev ρ v = .ok (.list [v]))) := by
  induction n with
  | zero => intro v hv; cases v <;> simp at hv
  | succ n ih =>
    intro v hv hlit hno
    have hentries : ∀ l : List (Val N A), sizeOf l ≤ n → (∀ v ∈ l, Literal v) →
        (∀ v ∈ l, v.map? = none) → (∀ v ∈ l, NoMapInList v) → expandEntries ev ρ l = .ok l := by
      intro l
      induction l with
      | nil => intros; rfl
      | cons w t iht =>
        intro hs h1 h2 h3
        simp only [List.cons.sizeOf_spec] at hs
        have hw := (ih w (by omega) (h1 w (by simp)) (h3 w (by simp))).2 (h2 w (by simp))
        have ht := iht (by omega) (fun x hx => h1 x (by simp [hx])) (fun x hx => h2 x (by simp [hx]))
          (fun x hx => h3 x (by simp [hx]))
        simp only [expandEntries, hw, Res.bind, Val.list?, Res.ofOption, ht]
        rfl
    have hitems : ∀ m : Items N A, sizeOf m ≤ n → (∀ kv ∈ m, Literal kv.2) →
        (∀ kv ∈ m, NoMapInList kv.2) → expandItems ev ρ m = .ok m := by
      intro m
      induction m with
      | nil => intros; rfl
      | cons kv t iht =>
        obtain ⟨k, w⟩ := kv
        intro hs h1 h2
        simp only [List.cons.sizeOf_spec, Prod.mk.sizeOf_spec] at hs
        have hw := (ih w (by omega) (h1 (k, w) (by simp)) (h2 (k, w) (by simp))).1
        have ht := iht (by omega) (fun x hx => h1 x (by simp [hx])) (fun x hx => h2 x (by simp [hx]))
        simp only [expandItems, hw, Res.bind, ht]
    cases v with
    | list l =>
      simp only [Val.list.sizeOf_spec] at hv
      cases hlit with
      | atom h _ => simp [Val.list?] at h
      | list h1 =>
        cases hno with
        | atom h _ => simp [Val.list?] at h
        | list h2 h3 =>
          have := hentries l (by omega) h1 h2 h3
          exact ⟨by simp only [expand, this, Res.bind], fun _ => by
            simp only [expandEntry, this, Res.bind]⟩
    | map m =>
      simp only [Val.map.sizeOf_spec] at hv
      cases hlit with
      | atom _ h => simp [Val.map?] at h
      | map hu h1 =>
        cases hno with
        | atom _ h => simp [Val.map?] at h
        | map h2 =>
          have := hitems m (by omega) h1 h2
          have hne : ∀ s : String, assoc "type".toList m ≠ some (lit s) →
              unquoteType m ≠ some s.toList := by
            intro s hs h
            unfold unquoteType at h
            cases ha : assoc "type".toList m with
            | none => rw [ha] at h; cases h
            | some w =>
              rw [ha] at h
              exact hs (by rw [ha, Val.eq_of_str? h]; rfl)
          refine ⟨?_, fun h => by simp [Val.map?] at h⟩
          simp only [expand]
          rw [if_neg (hne "," (fun h => hu (Or.inl h))), if_neg (hne ",@" (fun h => hu (Or.inr h))),
            this]
          rfl
    | _ => exact ⟨rfl, fun _ => rfl⟩

/-- C10 for literals in which no list has a map as entry (for others the property does not hold, see
`C10_violation`): `quasi-quote` returns the literal. -/
theorem C10_quasi_quote_partial (O : Ops N A) (hp : O.provided "`".toList = none) (f : Fn N A)
    (m : Items N A) (v : Val N A) (ρ : Env N A)
    (ht : assoc "type".toList m = some (lit "`")) (hv : assoc "$1".toList m = some v)
    (hlit : Literal v) (hno : NoMapInList v) :
    Evals O f (.map m) ρ (.ok v) := by
  refine ⟨1, fun k hk => ?_⟩
  obtain ⟨j, rfl⟩ : ∃ j, k = j + 1 := ⟨k - 1, by omega⟩
  rw [eval_builtIn O f j (c := quasiQuoteExpr) ρ ht (by decide) hp (by rfl)]
  simp only [quasiQuoteExpr, hv]
  exact (expand_literal _ ρ _ v (Nat.le_refl _) hlit hno).1

example (ρ : Env Nat Unit) : Evals demoOps (demoFn .none)
    (.map [("$1".toList, .map [("a".toList, .list [lit "x", .num 1])]), ("type".toList, lit "`")]) ρ
    (.ok (.map [("a".toList, .list [lit "x", .num 1])])) := by
  refine C10_quasi_quote_partial demoOps rfl _ _ _ ρ (by rfl) (by rfl) ?_ ?_
  · refine .map (fun h => ?_) (fun kv hkv => ?_)
    · rcases h with h | h <;> exact absurd h (by simp [assoc])
    · rw [List.mem_singleton.mp hkv]
      refine .list (fun v hv => ?_)
      simp only [List.mem_cons, List.not_mem_nil, or_false] at hv
      rcases hv with rfl | rfl <;> exact .atom rfl rfl
  · refine .map (fun kv hkv => ?_)
    rw [List.mem_singleton.mp hkv]
    refine .list (fun v hv => ?_) (fun v hv => ?_)
    all_goals
      simp only [List.mem_cons, List.not_mem_nil, or_false] at hv
      rcases hv with rfl | rfl
    · rfl
    · rfl
    · exact .atom rfl rfl
    · exact .atom rfl rfl

/-- C10 does not hold: quasi-quoting the literal `[{"a": "x"}]` fails. -/
theorem C10_violation (O : Ops N A) (hp : O.provided "`".toList = none) (f : Fn N A) (ρ : Env N A) :
    let v : Val N A := .list [.map [("a".toList, lit "x")]]
    Literal v ∧ Evals O f (.map [("$1".toList, v), ("type".toList, lit "`")]) ρ .fail := by
  constructor
  · refine .list (fun w hw => ?_)
    rw [List.mem_singleton.mp hw]
    refine .map (fun h => ?_) (fun kv hkv => ?_)
    · rcases h with h | h <;> exact absurd h (by simp [assoc])
    · rw [List.mem_singleton.mp hkv]
      exact .atom rfl rfl
  · refine ⟨1, fun k hk => ?_⟩
    obtain ⟨j, rfl⟩ : ∃ j, k = j + 1 := ⟨k - 1, by omega⟩
    rw [eval_builtIn O f j (c := quasiQuoteExpr) (ty := "`".toList) ρ (by rfl) (by decide) hp (by rfl)]
    rfl

end Verif.Expr
