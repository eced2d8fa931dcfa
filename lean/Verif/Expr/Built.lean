import Verif.Expr.Model

/-!
# Where the opaque parts of a value come from

Names, artifacts, results and nodes are opaque for the constructs of the language.  The constructs have no
way to make new ones.
-/

set_option linter.unusedSectionVars false

namespace Verif.Expr

variable {N A : Type}

mutual
/-- All opaque parts have the property. -/
def Built (P : Val N A → Prop) : Val N A → Prop
  | .none => True
  | .bool _ => True
  | .num _ => True
  | .str _ => True
  | .list l => BuiltList P l
  | .map m => BuiltItems P m
  | .name e => P (.name e)
  | .art a => P (.art a)
  | .result s p r => P (.result s p r)
  | .valueNode v => P (.valueNode v)
  | .absNode t s u => P (.absNode t s u)
/-- All opaque parts of the entries have the property. -/
def BuiltList (P : Val N A → Prop) : List (Val N A) → Prop
  | [] => True
  | v :: t => Built P v ∧ BuiltList P t
/-- All opaque parts of the values have the property. -/
def BuiltItems (P : Val N A → Prop) : List (Str × Val N A) → Prop
  | [] => True
  | (_, v) :: t => Built P v ∧ BuiltItems P t
end

variable {P : Val N A → Prop}

theorem builtList_iff {l : List (Val N A)} : BuiltList P l ↔ ∀ v ∈ l, Built P v := by
  induction l with
  | nil => simp [BuiltList]
  | cons v t ih => simp [BuiltList, ih]

theorem builtItems_iff {m : List (Str × Val N A)} : BuiltItems P m ↔ ∀ e ∈ m, Built P e.2 := by
  induction m with
  | nil => simp [BuiltItems]
  | cons e t ih => obtain ⟨k, v⟩ := e; simp [BuiltItems, ih]

theorem built_list {l : List (Val N A)} : Built P (.list l) ↔ ∀ v ∈ l, Built P v := by
  rw [← builtList_iff]; rfl

theorem built_map {m : List (Str × Val N A)} : Built P (.map m) ↔ ∀ e ∈ m, Built P e.2 := by
  rw [← builtItems_iff]; rfl

/-- If there is a value, it has the property. -/
def ResAll {α : Type} (Q : α → Prop) (r : Res α) : Prop := ∀ a, r = .ok a → Q a

theorem ResAll.ok {α : Type} {Q : α → Prop} {a : α} (h : Q a) : ResAll Q (.ok a) := by
  intro b hb
  cases hb
  exact h

theorem ResAll.fail {α : Type} {Q : α → Prop} : ResAll Q (.fail : Res α) := by
  intro b hb; cases hb

theorem ResAll.timeout {α : Type} {Q : α → Prop} : ResAll Q (.timeout : Res α) := by
  intro b hb; cases hb

theorem ResAll.bind {α β : Type} {Q : α → Prop} {Q' : β → Prop} {r : Res α} {k : α → Res β}
    (h : ResAll Q r) (hk : ∀ a, Q a → ResAll Q' (k a)) : ResAll Q' (r.bind k) := by
  cases r with
  | ok a => exact hk a (h a rfl)
  | fail => exact ResAll.fail
  | timeout => exact ResAll.timeout

theorem ResAll.option {α : Type} {Q : α → Prop} {o : Option α} (h : ∀ a, o = some a → Q a) :
    ResAll Q (Res.ofOption o) := by
  cases o with
  | none => exact ResAll.fail
  | some a => exact ResAll.ok (h a rfl)

theorem ResAll.withOption {α β : Type} {Q' : β → Prop} {o : Option α} {k : α → Res β}
    (h : ∀ a, o = some a → ResAll Q' (k a)) : ResAll Q' ((Res.ofOption o).bind k) := by
  cases o with
  | none => exact ResAll.fail
  | some a => exact h a rfl

theorem ResAll.mapRes {α β : Type} {Q : β → Prop} {f : α → Res β} {l : List α}
    (h : ∀ a ∈ l, ResAll Q (f a)) : ResAll (fun bs => ∀ b ∈ bs, Q b) (mapRes f l) := by
  induction l with
  | nil => exact ResAll.ok (by simp)
  | cons a t ih =>
    unfold Expr.mapRes
    refine ResAll.bind (h a (by simp)) fun b hb => ?_
    refine ResAll.bind (ih fun x hx => h x (by simp [hx])) fun bs hbs => ?_
    refine ResAll.ok ?_
    intro x hx
    rcases List.mem_cons.1 hx with rfl | hx
    · exact hb
    · exact hbs x hx

theorem ResAll.any {α : Type} {r : Res α} : ResAll (fun _ => True) r := fun _ _ => trivial

theorem list?_built {v : Val N A} {l : List (Val N A)} (h : Built P v) (e : v.list? = some l) :
    ∀ w ∈ l, Built P w := by
  rw [Val.eq_of_list? e] at h
  exact built_list.1 h

theorem map?_built {v : Val N A} {m : Items N A} (h : Built P v) (e : v.map? = some m) :
    ∀ w ∈ m, Built P w.2 := by
  rw [Val.eq_of_map? e] at h
  exact built_map.1 h

theorem assoc_built {m : Items N A} {k : Str} {v : Val N A} (h : ∀ e ∈ m, Built P e.2)
    (e : assoc k m = some v) : Built P v := h (k, v) (assoc_some_mem e)

theorem insertList_built {f : Val N A → Val N A → Val N A} (hf : ∀ a b, f a b = a ∨ f a b = b)
    {m : Items N A} {k : Str} {v : Val N A} (h : ∀ e ∈ m, Built P e.2) (hv : Built P v) :
    ∀ e ∈ OMap.insertList f k v m, Built P e.2 := by
  induction m with
  | nil =>
    intro e he
    simp only [OMap.insertList, List.mem_singleton] at he
    subst he
    exact hv
  | cons x t ih =>
    obtain ⟨k', w⟩ := x
    intro e he
    simp only [OMap.insertList] at he
    split at he
    · rcases List.mem_cons.1 he with rfl | he
      · exact hv
      · exact h e he
    · split at he
      · rcases List.mem_cons.1 he with rfl | he
        · rcases hf w v with e' | e'
          · simp only [e']; exact h (k', w) (by simp)
          · simp only [e']; exact hv
        · exact h e (by simp [he])
      · rcases List.mem_cons.1 he with rfl | he
        · exact h (k', w) (by simp)
        · exact ih (fun e he => h e (by simp [he])) e he

theorem assignItem_built {m : Items N A} {k : Str} {v : Val N A} (h : ∀ e ∈ m, Built P e.2)
    (hv : Built P v) : ∀ e ∈ assignItem m k v, Built P e.2 :=
  insertList_built (fun _ _ => Or.inr rfl) h hv

theorem mergeItems_built (m n : Items N A) (hm : ∀ e ∈ m, Built P e.2) (hn : ∀ e ∈ n, Built P e.2) :
    ∀ e ∈ LinkedMap.mergeItems m n, Built P e.2 := by
  fun_induction LinkedMap.mergeItems m n with
  | case1 n => exact hn
  | case2 c cs => exact hm
  | case3 vc cs kc vn ns ih =>
    intro e he
    rcases List.mem_cons.1 he with rfl | he
    · exact hm (kc, vc) (by simp)
    · exact ih (fun e he => hm e (by simp [he])) (fun e he => hn e (by simp [he])) e he
  | case4 kc vc cs kn vn ns h h' ih =>
    intro e he
    rcases List.mem_cons.1 he with rfl | he
    · exact hm (kc, vc) (by simp)
    · exact ih (fun e he => hm e (by simp [he])) hn e he
  | case5 kc vc cs kn vn ns h h' ih =>
    intro e he
    rcases List.mem_cons.1 he with rfl | he
    · exact hn (kn, vn) (by simp)
    · exact ih hm (fun e he => hn e (by simp [he])) e he

theorem foldMerge_built (ms : List (Items N A)) (r : Items N A) (hm : ∀ m ∈ ms, ∀ e ∈ m, Built P e.2)
    (hr : ∀ e ∈ r, Built P e.2) :
    ∀ e ∈ ms.foldl (fun acc m => LinkedMap.mergeItems m acc) r, Built P e.2 := by
  induction ms generalizing r with
  | nil => exact hr
  | cons m t ih =>
    simp only [List.foldl_cons]
    exact ih _ (fun m' h' => hm m' (by simp [h'])) (mergeItems_built _ _ (hm m (by simp)) hr)

/-- A function on values that introduces nothing. -/
def Keeps (P : Val N A → Prop) (f : Val N A → Res (Val N A)) : Prop :=
  ∀ v, Built P v → ResAll (Built P) (f v)

variable (O : Ops N A)

theorem keeps_flatten : Keeps P (flatten : Val N A → _) := by
  intro v hv
  unfold flatten
  refine ResAll.withOption fun l hl => ?_
  refine ResAll.bind (ResAll.mapRes (Q := fun l : List (Val N A) => ∀ v ∈ l, Built P v) fun e he =>
    ResAll.option fun l' hl' => list?_built (list?_built hv hl e he) hl') fun ll hll => ?_
  refine ResAll.ok (built_list.2 ?_)
  intro w hw
  obtain ⟨l', h1, h2⟩ := List.mem_flatten.1 hw
  exact hll l' h1 w h2

theorem keeps_addition : Keeps P (addition O) := fun _ _ =>
  ResAll.withOption fun _ _ => ResAll.bind ResAll.any fun _ _ => ResAll.ok trivial

theorem keeps_multiplication : Keeps P (multiplication O) := fun _ _ =>
  ResAll.withOption fun _ _ => ResAll.bind ResAll.any fun _ _ => ResAll.ok trivial

theorem keeps_allTrue : Keeps P (allTrue O) := fun _ _ =>
  ResAll.withOption fun _ _ => ResAll.ok trivial

theorem keeps_anyTrue : Keeps P (anyTrue O) := fun _ _ =>
  ResAll.withOption fun _ _ => ResAll.ok trivial

theorem keeps_negation : Keeps P (negation O) := fun _ _ => ResAll.ok trivial

theorem keeps_keys : Keeps P (keys : Val N A → _) := fun v _ =>
  ResAll.withOption fun m _ => ResAll.ok (built_list.2 (by
    intro w hw
    obtain ⟨e, -, rfl⟩ := List.mem_map.1 hw
    trivial))

theorem keeps_values : Keeps P (values : Val N A → _) := fun v hv =>
  ResAll.withOption fun m hm => ResAll.ok (built_list.2 (by
    intro w hw
    obtain ⟨e, he, rfl⟩ := List.mem_map.1 hw
    exact map?_built hv hm e he))

theorem enumerateFrom_built (n : Nat) (l : List (Val N A)) (r : Items N A) (hl : ∀ v ∈ l, Built P v)
    (hr : ∀ e ∈ r, Built P e.2) : ∀ e ∈ enumerateFrom n l r, Built P e.2 := by
  induction l generalizing n r with
  | nil => exact hr
  | cons v t ih =>
    exact ih _ _ (fun v hv => hl v (by simp [hv])) (assignItem_built hr (hl v (by simp)))

theorem keeps_enumerate : Keeps P (enumerate : Val N A → _) := fun v hv =>
  ResAll.withOption fun l hl => ResAll.ok (built_map.2
    (enumerateFrom_built _ _ _ (list?_built hv hl) (by simp)))

theorem keeps_toSet : Keeps P (toSet : Val N A → _) := fun v _ =>
  ResAll.withOption fun _ _ => ResAll.bind ResAll.any fun ss _ => ResAll.ok (built_map.2 (by
    have : ∀ (ss : List Str) (r : Items N A), (∀ e ∈ r, Built P e.2) →
        ∀ e ∈ ss.foldl (fun m s => assignItem m s (.bool true)) r, Built P e.2 := by
      intro ss
      induction ss with
      | nil => intro r hr; exact hr
      | cons s t ih => intro r hr; exact ih _ (assignItem_built hr trivial)
    exact this ss [] (by simp)))

theorem keeps_reversed : Keeps P (reversed : Val N A → _) := fun v hv =>
  ResAll.withOption fun l hl => ResAll.ok (built_list.2 (by
    intro w hw
    exact list?_built hv hl w (List.mem_reverse.1 hw)))

theorem keeps_lengthOf : Keeps P (lengthOf O) := fun _ _ =>
  ResAll.withOption fun _ _ => ResAll.ok trivial

theorem nubGo_mem (seen : List Str) (l : List (Val N A)) : ∀ v ∈ nubGo O seen l, v ∈ l := by
  induction l generalizing seen with
  | nil => simp [nubGo]
  | cons a t ih =>
    intro v hv
    simp only [nubGo] at hv
    split at hv
    · exact List.mem_cons_of_mem _ (ih _ v hv)
    · rcases List.mem_cons.1 hv with rfl | hv
      · simp
      · exact List.mem_cons_of_mem _ (ih _ v hv)

theorem keeps_nubRight : Keeps P (nubRight O) := fun v hv =>
  ResAll.withOption fun l hl => by
    split
    · split
      · exact ResAll.ok hv
      · refine ResAll.ok (built_list.2 ?_)
        intro w hw
        exact list?_built hv hl w (List.mem_reverse.1 (nubGo_mem O _ _ w (List.mem_reverse.1 hw)))
    · exact ResAll.fail

theorem keeps_nubLeft : Keeps P (nubLeft O) := fun v hv =>
  ResAll.withOption fun l hl => by
    split
    · split
      · exact ResAll.ok hv
      · refine ResAll.ok (built_list.2 ?_)
        intro w hw
        exact list?_built hv hl w (nubGo_mem O _ _ w hw)
    · exact ResAll.fail

theorem keeps_range : Keeps P (range O) := fun v _ => by
  have : ∀ len : Int, ResAll (Built P) (if len < 0 then (.fail : Res (Val N A))
      else .ok (.list ((List.range len.toNat).map (fun i => .str (decimal i))))) := by
    intro len
    split
    · exact ResAll.fail
    · refine ResAll.ok (built_list.2 ?_)
      intro w hw
      obtain ⟨i, -, rfl⟩ := List.mem_map.1 hw
      trivial
  exact this _

theorem keeps_baseName : Keeps P (baseName : Val N A → _) := fun _ _ =>
  ResAll.withOption fun _ _ => ResAll.ok trivial

theorem join_built (a b : Bool) (v : Val N A) (sep : Str) : ResAll (Built P) (join a b v sep) := by
  unfold join
  split
  · split
    · exact ResAll.ok trivial
    · exact ResAll.fail
  · exact ResAll.bind ResAll.any fun _ _ => ResAll.ok trivial
  · exact ResAll.fail

theorem maps_built {v : Val N A} {l : List (Val N A)} (hv : Built P v) (hl : v.list? = some l) :
    ResAll (fun ms : List (Items N A) => ∀ m ∈ ms, ∀ e ∈ m, Built P e.2)
      (mapRes (fun e => Res.ofOption e.map?) l) :=
  ResAll.mapRes fun e he => ResAll.option fun _ hm => map?_built (list?_built hv hl e he) hm

theorem keeps_mapUnion : Keeps P (mapUnion : Val N A → _) := fun _ hv =>
  ResAll.withOption fun _ hl => ResAll.bind (maps_built hv hl) fun ms hms =>
    ResAll.ok (built_map.2 (foldMerge_built ms [] hms (by simp)))

theorem keeps_disjointUnion : Keeps P (disjointUnion O) := fun v hv => by
  unfold disjointUnion
  split
  · refine ResAll.withOption fun _ hl => ResAll.bind (maps_built hv hl) fun ms hms => ?_
    split
    · exact ResAll.ok (built_map.2 (foldMerge_built ms [] hms (by simp)))
    · exact ResAll.fail
  · exact ResAll.fail

theorem changeEnding_built (v w : Val N A) : ResAll (Built P) (changeEnding v w) :=
  ResAll.withOption fun _ _ => ResAll.withOption fun _ _ => ResAll.ok trivial

theorem concatTargetName_built (v w : Val N A) : ResAll (Built P) (concatTargetName v w) := by
  unfold concatTargetName
  refine ResAll.withOption fun a _ => ?_
  split
  · exact ResAll.ok trivial
  · refine ResAll.bind ResAll.any fun ss _ => ResAll.ok (built_list.2 ?_)
    intro w hw
    obtain ⟨i, -, rfl⟩ := List.mem_map.1 hw
    trivial
  · exact ResAll.fail

theorem stageItems_built (flat : Bool) (g : Str → Str) (m r : Items N A) (hm : ∀ e ∈ m, Built P e.2)
    (hr : ∀ e ∈ r, Built P e.2) :
    ResAll (fun r : Items N A => ∀ e ∈ r, Built P e.2) (stageItems O flat g m r) := by
  induction m generalizing r with
  | nil => exact ResAll.ok hr
  | cons e t ih =>
    obtain ⟨k, v⟩ := e
    have ht : ∀ e ∈ t, Built P e.2 := fun e he => hm e (by simp [he])
    have hv : Built P v := hm (k, v) (by simp)
    simp only [stageItems]
    split
    · exact ih _ ht (assignItem_built hr hv)
    · split
      · refine ih _ ht ?_
        split
        · exact assignItem_built hr hv
        · exact hr
      · exact ResAll.fail

theorem toSubdir_built {d : Val N A} (s : Val N A) (b : Bool) (hd : Built P d) :
    ResAll (Built P) (toSubdir O d s b) :=
  ResAll.withOption fun _ _ => ResAll.withOption fun m hm =>
    ResAll.bind (stageItems_built O _ _ m [] (map?_built hd hm) (by simp)) fun _ hr =>
      ResAll.ok (built_map.2 hr)

theorem unstageItems_built (sub : Str) (m r : Items N A) (hm : ∀ e ∈ m, Built P e.2)
    (hr : ∀ e ∈ r, Built P e.2) :
    ResAll (fun r : Items N A => ∀ e ∈ r, Built P e.2) (unstageItems O sub m r) := by
  induction m generalizing r with
  | nil => exact ResAll.ok hr
  | cons e t ih =>
    obtain ⟨k, v⟩ := e
    have ht : ∀ e ∈ t, Built P e.2 := fun e he => hm e (by simp [he])
    have hv : Built P v := hm (k, v) (by simp)
    simp only [unstageItems]
    split
    · split
      · exact ih _ ht (assignItem_built hr hv)
      · split
        · exact ih _ ht hr
        · exact ResAll.fail
    · exact ih _ ht hr

theorem fromSubdir_built {d : Val N A} (s : Val N A) (hd : Built P d) :
    ResAll (Built P) (fromSubdir O d s) :=
  ResAll.withOption fun _ _ => ResAll.withOption fun m hm =>
    ResAll.bind (unstageItems_built O _ m [] (map?_built hd hm) (by simp)) fun _ hr =>
      ResAll.ok (built_map.2 hr)

theorem escapeChars_built (v w u : Val N A) : ResAll (Built P) (escapeChars v w u) :=
  ResAll.withOption fun _ _ => ResAll.bind ResAll.any fun _ _ => ResAll.ok trivial

/-! ## Constructs -/

/-- An environment in which all opaque parts have the property. -/
def BuiltEnv (P : Val N A → Prop) (ρ : Env N A) : Prop := ∀ x, Built P (ρ x)

theorem BuiltEnv.update {ρ : Env N A} (h : BuiltEnv P ρ) {x : Str} {v : Val N A} (hv : Built P v) :
    BuiltEnv P (ρ.update x v) := by
  intro y
  unfold Env.update
  split
  · exact hv
  · exact h y

theorem BuiltEnv.prune {ρ : Env N A} (h : BuiltEnv P ρ) (vars : List Str) : BuiltEnv P (ρ.prune vars) := by
  intro y
  unfold Env.prune
  split
  · exact h y
  · trivial

/-- An evaluator that introduces nothing. -/
def KeepsEv (P : Val N A → Prop) (ev : Ev N A) : Prop :=
  ∀ e ρ, Built P e → BuiltEnv P ρ → ResAll (Built P) (ev e ρ)

/-- A construct that introduces nothing. -/
def KeepsIn (P : Val N A → Prop) (c : Construct N A) : Prop :=
  ∀ ev m ρ, KeepsEv P ev → (∀ e ∈ m, Built P e.2) → BuiltEnv P ρ → ResAll (Built P) (c ev m ρ)

theorem get_built {m : Items N A} (hm : ∀ e ∈ m, Built P e.2) {k : String} {d : Val N A}
    (hd : Built P d) : Built P (get m k d) := by
  unfold get
  cases h : assoc k.toList m with
  | none => exact hd
  | some v => exact assoc_built hm h

theorem nil_built : Built P (.list [] : Val N A) := trivial
theorem nilMap_built : Built P (.map [] : Val N A) := trivial
theorem none_built : Built P (.none : Val N A) := trivial
theorem lit_built (s : String) : Built P (lit s : Val N A) := trivial
theorem false_built : Built P (.bool false : Val N A) := trivial
theorem emptyMapLit_built : Built P (emptyMapLit : Val N A) := ⟨trivial, trivial⟩

section
variable {ev : Ev N A} {m : Items N A} {ρ : Env N A} (hev : KeepsEv P ev)
  (hm : ∀ e ∈ m, Built P e.2) (hρ : BuiltEnv P ρ)
include hev hm hρ

theorem argument_built (k : String) : ResAll (Built P) (argument ev m k ρ) :=
  ResAll.withOption fun e he => hev e ρ (assoc_built hm he) hρ

theorem getEv_built (k : String) {d : Val N A} (hd : Built P d) :
    ResAll (Built P) (ev (get m k d) ρ) := hev _ _ (get_built hm hd) hρ

end

theorem in_unary {f : Val N A → Res (Val N A)} (hf : Keeps P f) : KeepsIn P (unary f) :=
  fun _ _ _ hev hm hρ => ResAll.bind (argument_built hev hm hρ _) hf

theorem in_and : KeepsIn P (andExpr O) := by
  intro ev m ρ hev hm hρ
  unfold andExpr
  split
  · exact ResAll.ok trivial
  · rename_i e he
    have h := assoc_built hm he
    split
    · rename_i l hl
      clear he h hl
      induction l with
      | nil => exact ResAll.ok trivial
      | cons c t ih =>
        simp only [logicalAnd]
        refine ResAll.bind ResAll.any fun v _ => ?_
        split
        · exact ih
        · exact ResAll.ok trivial
    · exact ResAll.bind (hev e ρ h hρ) (keeps_allTrue O)

theorem in_or : KeepsIn P (orExpr O) := by
  intro ev m ρ hev hm hρ
  unfold orExpr
  split
  · exact ResAll.ok trivial
  · rename_i e he
    have h := assoc_built hm he
    split
    · rename_i l hl
      clear he h hl
      induction l with
      | nil => exact ResAll.ok trivial
      | cons c t ih =>
        simp only [logicalOr]
        refine ResAll.bind ResAll.any fun v _ => ?_
        split
        · exact ResAll.ok trivial
        · exact ih
    · exact ResAll.bind (hev e ρ h hρ) (keeps_anyTrue O)

theorem in_var : KeepsIn P (varExpr : Construct N A) := by
  intro ev m ρ hev hm hρ
  unfold varExpr
  refine ResAll.withOption fun e _ => ResAll.withOption fun x _ => ?_
  split
  · exact getEv_built hev hm hρ _ none_built
  · exact ResAll.ok (hρ x)

section
variable {ev : Ev N A} {ρ : Env N A} (hev : KeepsEv P ev) (hρ : BuiltEnv P ρ)
include hev hρ

mutual
theorem expandEntry_built (v : Val N A) (hv : Built P v) : ResAll (Built P) (expandEntry ev ρ v) := by
  match v with
  | .list l =>
    unfold expandEntry
    refine ResAll.bind (expandEntries_built l (built_list.1 hv)) fun r hr => ResAll.ok ?_
    exact ⟨built_list.2 hr, trivial⟩
  | .map m =>
    unfold expandEntry
    split
    · split
      · exact ResAll.ok trivial
      · rename_i e he
        refine ResAll.bind (hev e ρ (assoc_built (built_map.1 hv) he) hρ) fun w hw => ResAll.ok ?_
        exact ⟨hw, trivial⟩
    · split
      · split
        · exact ResAll.ok trivial
        · rename_i e he
          refine ResAll.bind (hev e ρ (assoc_built (built_map.1 hv) he) hρ) fun w hw => ?_
          split
          · exact ResAll.ok hw
          · exact ResAll.fail
      · exact ResAll.bind (expandItems_built m (built_map.1 hv)) fun r hr => ResAll.ok (built_map.2 hr)
  | .none => exact ResAll.ok ⟨hv, trivial⟩
  | .bool _ => exact ResAll.ok ⟨hv, trivial⟩
  | .num _ => exact ResAll.ok ⟨hv, trivial⟩
  | .str _ => exact ResAll.ok ⟨hv, trivial⟩
  | .name _ => exact ResAll.ok ⟨hv, trivial⟩
  | .art _ => exact ResAll.ok ⟨hv, trivial⟩
  | .result _ _ _ => exact ResAll.ok ⟨hv, trivial⟩
  | .valueNode _ => exact ResAll.ok ⟨hv, trivial⟩
  | .absNode _ _ _ => exact ResAll.ok ⟨hv, trivial⟩

theorem expandEntries_built (l : List (Val N A)) (hl : ∀ v ∈ l, Built P v) :
    ResAll (fun r : List (Val N A) => ∀ v ∈ r, Built P v) (expandEntries ev ρ l) := by
  match l with
  | [] => exact ResAll.ok (by simp)
  | v :: t =>
    unfold expandEntries
    refine ResAll.bind (expandEntry_built v (hl v (by simp))) fun e he => ?_
    refine ResAll.withOption fun l' hl' => ?_
    refine ResAll.bind (expandEntries_built t (fun v hv => hl v (by simp [hv]))) fun r hr => ?_
    refine ResAll.ok ?_
    intro w hw
    rcases List.mem_append.1 hw with hw | hw
    · exact list?_built he hl' w hw
    · exact hr w hw

theorem expandItems_built (l : List (Str × Val N A)) (hl : ∀ v ∈ l, Built P v.2) :
    ResAll (fun r : Items N A => ∀ v ∈ r, Built P v.2) (expandItems ev ρ l) := by
  match l with
  | [] => exact ResAll.ok (by simp)
  | (k, v) :: t =>
    unfold expandItems
    refine ResAll.bind (expand_built v (hl (k, v) (by simp))) fun e he => ?_
    refine ResAll.bind (expandItems_built t (fun v hv => hl v (by simp [hv]))) fun r hr => ?_
    refine ResAll.ok ?_
    intro w hw
    rcases List.mem_cons.1 hw with rfl | hw
    · exact he
    · exact hr w hw

theorem expand_built (v : Val N A) (hv : Built P v) : ResAll (Built P) (expand ev ρ v) := by
  match v with
  | .list l =>
    unfold expand
    exact ResAll.bind (expandEntries_built l (built_list.1 hv)) fun r hr => ResAll.ok (built_list.2 hr)
  | .map m =>
    unfold expand
    split
    · split
      · exact ResAll.ok trivial
      · rename_i e he
        exact hev e ρ (assoc_built (built_map.1 hv) he) hρ
    · split
      · exact ResAll.fail
      · exact ResAll.bind (expandItems_built m (built_map.1 hv)) fun r hr => ResAll.ok (built_map.2 hr)
  | .none => exact ResAll.ok hv
  | .bool _ => exact ResAll.ok hv
  | .num _ => exact ResAll.ok hv
  | .str _ => exact ResAll.ok hv
  | .name _ => exact ResAll.ok hv
  | .art _ => exact ResAll.ok hv
  | .result _ _ _ => exact ResAll.ok hv
  | .valueNode _ => exact ResAll.ok hv
  | .absNode _ _ _ => exact ResAll.ok hv
end

end

theorem in_quasiQuote : KeepsIn P (quasiQuoteExpr : Construct N A) := by
  intro ev m ρ hev hm hρ
  unfold quasiQuoteExpr
  split
  · exact ResAll.ok trivial
  · rename_i e he
    exact expand_built hev hρ e (assoc_built hm he)

theorem in_quote : KeepsIn P (quoteExpr : Construct N A) :=
  fun _ _ _ _ hm _ => ResAll.ok (get_built hm none_built)

theorem in_onlyInQuasiQuote : KeepsIn P (onlyInQuasiQuote : Construct N A) :=
  fun _ _ _ _ _ _ => ResAll.fail

theorem in_if : KeepsIn P (ifExpr O) := by
  intro ev m ρ hev hm hρ
  unfold ifExpr
  refine ResAll.bind ResAll.any fun c _ => ?_
  split
  · exact getEv_built hev hm hρ _ nil_built
  · exact getEv_built hev hm hρ _ nil_built

theorem pair_built {v a b : Val N A} (h : Built P v) (e : pair? v = some (a, b)) :
    Built P a ∧ Built P b := by
  unfold pair? at e
  split at e
  · simp only [Option.some.injEq, Prod.mk.injEq] at e
    obtain ⟨rfl, rfl⟩ := e
    exact ⟨h.1, h.2.1⟩
  · cases e

/-- A value that may be missing. -/
def OptBuilt (P : Val N A → Prop) (o : Option (Val N A)) : Prop := ∀ v, o = some v → Built P v

theorem condGo_built {ev : Ev N A} {ρ : Env N A} (hev : KeepsEv P ev) (hρ : BuiltEnv P ρ)
    (l : List (Val N A)) (hl : ∀ v ∈ l, Built P v) : ResAll (OptBuilt P) (condGo O ev ρ l) := by
  induction l with
  | nil => exact ResAll.ok (by intro v hv; cases hv)
  | cons p t ih =>
    simp only [condGo]
    refine ResAll.withOption fun ab hab => ?_
    obtain ⟨a, b⟩ := ab
    obtain ⟨h1, h2⟩ := pair_built (hl p (by simp)) hab
    refine ResAll.bind ResAll.any fun c _ => ?_
    split
    · refine ResAll.bind (hev b ρ h2 hρ) fun v hv => ResAll.ok ?_
      intro w hw
      cases hw
      exact hv
    · exact ih fun v hv => hl v (by simp [hv])

theorem in_cond : KeepsIn P (condExpr O) := by
  intro ev m ρ hev hm hρ
  unfold condExpr
  split
  · exact getEv_built hev hm hρ _ nil_built
  · rename_i c hc
    refine ResAll.withOption fun l hl => ?_
    refine ResAll.bind (condGo_built O hev hρ l (list?_built (assoc_built hm hc) hl)) fun r hr => ?_
    split
    · exact ResAll.ok (hr _ rfl)
    · exact getEv_built hev hm hρ _ nil_built

theorem in_case : KeepsIn P (caseExpr : Construct N A) := by
  intro ev m ρ hev hm hρ
  unfold caseExpr
  split
  · exact getEv_built hev hm hρ _ nil_built
  · rename_i c hc
    refine ResAll.withOption fun cs hcs => ?_
    refine ResAll.bind ResAll.any fun k _ => ResAll.withOption fun s _ => ?_
    split
    · rename_i e he
      exact hev e ρ (assoc_built (map?_built (assoc_built hm hc) hcs) he) hρ
    · exact getEv_built hev hm hρ _ nil_built

theorem caseGo_built {ev : Ev N A} {ρ : Env N A} (hev : KeepsEv P ev) (hρ : BuiltEnv P ρ)
    (cmp : Val N A) (l : List (Val N A)) (hl : ∀ v ∈ l, Built P v) :
    ResAll (OptBuilt P) (caseGo O ev ρ cmp l) := by
  induction l with
  | nil => exact ResAll.ok (by intro v hv; cases hv)
  | cons p t ih =>
    simp only [caseGo]
    refine ResAll.withOption fun ab hab => ?_
    obtain ⟨a, b⟩ := ab
    obtain ⟨h1, h2⟩ := pair_built (hl p (by simp)) hab
    refine ResAll.bind ResAll.any fun c _ => ?_
    split
    · refine ResAll.bind (hev b ρ h2 hρ) fun v hv => ResAll.ok ?_
      intro w hw
      cases hw
      exact hv
    · exact ih fun v hv => hl v (by simp [hv])

theorem in_seqCase : KeepsIn P (seqCaseExpr O) := by
  intro ev m ρ hev hm hρ
  unfold seqCaseExpr
  split
  · exact getEv_built hev hm hρ _ nil_built
  · rename_i c hc
    refine ResAll.withOption fun l hl => ?_
    refine ResAll.bind ResAll.any fun cmp _ => ?_
    split
    · refine ResAll.bind (caseGo_built O hev hρ cmp l (list?_built (assoc_built hm hc) hl)) fun r hr => ?_
      split
      · exact ResAll.ok (hr _ rfl)
      · exact getEv_built hev hm hρ _ nil_built
    · exact ResAll.fail

theorem in_equal : KeepsIn P (equalExpr O) := by
  intro ev m ρ hev hm hρ
  unfold equalExpr
  refine ResAll.bind ResAll.any fun a _ => ?_
  split
  · refine ResAll.bind ResAll.any fun b _ => ?_
    split
    · exact ResAll.ok trivial
    · exact ResAll.fail
  · exact ResAll.fail

theorem in_changeEnding : KeepsIn P (changeEndingExpr : Construct N A) := fun _ _ _ _ _ _ =>
  ResAll.bind ResAll.any fun _ _ => ResAll.bind ResAll.any fun _ _ => changeEnding_built _ _

theorem in_join : KeepsIn P (joinExpr : Construct N A) := fun _ _ _ _ _ _ =>
  ResAll.bind ResAll.any fun _ _ => ResAll.bind ResAll.any fun _ _ =>
    ResAll.withOption fun _ _ => join_built _ _ _ _

theorem in_joinCmd : KeepsIn P (joinCmdExpr : Construct N A) := fun _ _ _ _ _ _ =>
  ResAll.bind ResAll.any fun _ _ => join_built _ _ _ _

theorem in_jsonEncode : KeepsIn P (jsonEncodeExpr O) := fun _ _ _ _ _ _ =>
  ResAll.bind ResAll.any fun _ _ => ResAll.ok trivial

theorem in_escapeChars : KeepsIn P (escapeCharsExpr : Construct N A) := fun _ _ _ _ _ _ =>
  ResAll.bind ResAll.any fun _ _ => ResAll.bind ResAll.any fun _ _ =>
    ResAll.bind ResAll.any fun _ _ => escapeChars_built _ _ _

theorem in_lookup : KeepsIn P (lookupExpr : Construct N A) := by
  intro ev m ρ hev hm hρ
  unfold lookupExpr
  refine ResAll.bind ResAll.any fun k _ => ?_
  refine ResAll.bind (argument_built hev hm hρ _) fun d hd => ?_
  refine ResAll.withOption fun s _ => ResAll.withOption fun items hi => ?_
  split
  · exact getEv_built hev hm hρ _ none_built
  · rename_i v hv
    split
    · exact getEv_built hev hm hρ _ none_built
    · exact ResAll.ok (assoc_built (map?_built hd hi) hv)

theorem entryAt_mem {l : List (Val N A)} {i : Int} {v : Val N A} (h : entryAt l i = some v) : v ∈ l := by
  unfold entryAt at h
  split at h
  · exact List.mem_of_getElem? h
  · split at h
    · exact List.mem_of_getElem? h
    · cases h

theorem in_arrayAccess : KeepsIn P (arrayAccessExpr O) := by
  intro ev m ρ hev hm hρ
  unfold arrayAccessExpr
  refine ResAll.bind ResAll.any fun k _ => ?_
  refine ResAll.bind (argument_built hev hm hρ _) fun d hd => ?_
  refine ResAll.withOption fun l hl => ?_
  split
  · rename_i v hv
    exact ResAll.ok (list?_built hd hl v (entryAt_mem hv))
  · exact getEv_built hev hm hρ _ none_built

theorem in_emptyMap : KeepsIn P (emptyMapExpr : Construct N A) := fun _ _ _ _ _ _ => ResAll.ok trivial

theorem in_singletonMap : KeepsIn P (singletonMapExpr : Construct N A) := fun _ _ _ hev hm hρ =>
  ResAll.bind ResAll.any fun _ _ => ResAll.bind (argument_built hev hm hρ _) fun _ hv =>
    ResAll.withOption fun _ _ => ResAll.ok ⟨hv, trivial⟩

theorem in_toSubdir : KeepsIn P (toSubdirExpr O) := fun _ _ _ hev hm hρ =>
  ResAll.bind (argument_built hev hm hρ _) fun _ hd => ResAll.bind ResAll.any fun _ _ =>
    ResAll.bind ResAll.any fun _ _ => toSubdir_built O _ _ hd

theorem in_fromSubdir : KeepsIn P (fromSubdirExpr O) := fun _ _ _ hev hm hρ =>
  ResAll.bind (argument_built hev hm hρ _) fun _ hd => ResAll.bind ResAll.any fun _ _ =>
    fromSubdir_built O _ hd

theorem in_foreach : KeepsIn P (foreachExpr : Construct N A) := by
  intro ev m ρ hev hm hρ
  unfold foreachExpr
  refine ResAll.bind (getEv_built hev hm hρ _ nil_built) fun r hr => ResAll.withOption fun l hl => ?_
  split
  · exact ResAll.ok trivial
  · refine ResAll.bind (ResAll.mapRes fun v hv => ResAll.withOption fun x _ =>
      getEv_built hev hm (hρ.update (list?_built hr hl v hv)) _ nil_built) fun vs hvs => ?_
    exact ResAll.ok (built_list.2 hvs)

theorem in_foreachMap : KeepsIn P (foreachMapExpr : Construct N A) := by
  intro ev m ρ hev hm hρ
  unfold foreachMapExpr
  refine ResAll.bind (getEv_built hev hm hρ _ emptyMapLit_built) fun r hr => ResAll.withOption fun l hl => ?_
  split
  · exact ResAll.ok trivial
  · refine ResAll.bind (ResAll.mapRes fun v hv => ResAll.withOption fun x _ => ResAll.withOption fun y _ =>
      getEv_built hev hm ((hρ.update (show Built P (.str v.1) from trivial)).update
        (map?_built hr hl v hv)) _ nil_built) fun vs hvs => ?_
    exact ResAll.ok (built_list.2 hvs)

theorem in_zipWith : KeepsIn P (zipWithExpr : Construct N A) := by
  intro ev m ρ hev hm hρ
  unfold zipWithExpr
  refine ResAll.bind (getEv_built hev hm hρ _ nil_built) fun r hr => ResAll.withOption fun l hl => ?_
  split
  · exact ResAll.ok trivial
  · refine ResAll.bind (getEv_built hev hm hρ _ nil_built) fun r' hr' =>
      ResAll.withOption fun l' hl' => ?_
    split
    · exact ResAll.ok trivial
    · refine ResAll.bind (ResAll.mapRes fun v hv => ResAll.withOption fun x _ =>
        ResAll.withOption fun y _ => getEv_built hev hm
          ((hρ.update (list?_built hr hl v.1 (List.of_mem_zip (b := v.2) hv).1)).update
          (list?_built hr' hl' v.2 (List.of_mem_zip (a := v.1) hv).2)) _ nil_built) fun vs hvs => ?_
      exact ResAll.ok (built_list.2 hvs)

theorem zipMapGo_built (l : List (Val N A × Val N A)) (r : Items N A) (hl : ∀ e ∈ l, Built P e.2)
    (hr : ∀ e ∈ r, Built P e.2) :
    ResAll (fun r : Items N A => ∀ e ∈ r, Built P e.2) (zipMapGo l r) := by
  induction l generalizing r with
  | nil => exact ResAll.ok hr
  | cons e t ih =>
    obtain ⟨k, v⟩ := e
    simp only [zipMapGo]
    exact ResAll.withOption fun s _ => ih _ (fun e he => hl e (by simp [he]))
      (assignItem_built hr (hl (k, v) (by simp)))

theorem in_zipMap : KeepsIn P (zipMapExpr : Construct N A) := by
  intro ev m ρ hev hm hρ
  unfold zipMapExpr
  refine ResAll.bind (getEv_built hev hm hρ _ nil_built) fun r hr => ResAll.withOption fun l hl => ?_
  split
  · exact ResAll.ok trivial
  · refine ResAll.bind (getEv_built hev hm hρ _ nil_built) fun r' hr' =>
      ResAll.withOption fun l' hl' => ?_
    split
    · exact ResAll.ok trivial
    · refine ResAll.bind (zipMapGo_built _ [] (fun e he => list?_built hr' hl' e.2
        (List.of_mem_zip (a := e.1) he).2) (by simp)) fun r hr => ?_
      exact ResAll.ok (built_map.2 hr)

theorem foldGo_built {ev : Ev N A} {m : Items N A} {ρ : Env N A} (hev : KeepsEv P ev)
    (hm : ∀ e ∈ m, Built P e.2) (hρ : BuiltEnv P ρ) (l : List (Val N A)) (acc : Val N A)
    (hl : ∀ v ∈ l, Built P v) (ha : Built P acc) : ResAll (Built P) (foldGo ev ρ m l acc) := by
  induction l generalizing acc with
  | nil => exact ResAll.ok ha
  | cons v t ih =>
    simp only [foldGo]
    refine ResAll.withOption fun x _ => ResAll.withOption fun y _ => ?_
    refine ResAll.bind (getEv_built hev hm ((hρ.update ha).update (hl v (by simp))) _ nil_built)
      fun r hr => ?_
    exact ih r (fun v hv => hl v (by simp [hv])) hr

theorem in_foldLeft : KeepsIn P (foldLeftExpr : Construct N A) := fun _ _ _ hev hm hρ =>
  ResAll.bind (argument_built hev hm hρ _) fun _ hr =>
    ResAll.bind (getEv_built hev hm hρ _ nil_built) fun _ hs =>
      ResAll.withOption fun l hl => foldGo_built hev hm hρ l _ (list?_built hr hl) hs

theorem letGo_built {ev : Ev N A} {ρ : Env N A} (hev : KeepsEv P ev) (hρ : BuiltEnv P ρ)
    (l : List (Val N A)) (hl : ∀ v ∈ l, Built P v) : ResAll (BuiltEnv P) (letGo ev l ρ) := by
  induction l generalizing ρ with
  | nil => exact ResAll.ok hρ
  | cons b t ih =>
    simp only [letGo]
    refine ResAll.withOption fun xe hxe => ResAll.withOption fun x _ => ?_
    obtain ⟨a, e⟩ := xe
    refine ResAll.bind (hev e ρ (pair_built (hl b (by simp)) hxe).2 hρ) fun v hv => ?_
    exact ih (hρ.update hv) (fun v hv => hl v (by simp [hv]))

theorem in_let : KeepsIn P (letExpr : Construct N A) := by
  intro ev m ρ hev hm hρ
  unfold letExpr
  split
  · exact getEv_built hev hm hρ _ nilMap_built
  · rename_i b hb
    refine ResAll.withOption fun l hl => ?_
    refine ResAll.bind (letGo_built hev hρ l (list?_built (assoc_built hm hb) hl)) fun ρ' hρ' => ?_
    exact getEv_built hev hm hρ' _ nilMap_built

theorem in_env : KeepsIn P (envExpr : Construct N A) := by
  intro ev m ρ hev hm hρ
  unfold envExpr
  split
  · exact ResAll.ok trivial
  · refine ResAll.withOption fun l _ => ResAll.bind ResAll.any fun xs _ => ResAll.ok (built_map.2 ?_)
    have : ∀ (xs : List Str) (r : Items N A), (∀ e ∈ r, Built P e.2) →
        ∀ e ∈ xs.foldl (fun r x => OMap.insertList (fun old _ => old) x (ρ x) r) r, Built P e.2 := by
      intro xs
      induction xs with
      | nil => intro r hr; exact hr
      | cons x t ih => intro r hr; exact ih _ (insertList_built (fun _ _ => Or.inl rfl) hr (hρ x))
    exact this xs [] (by simp)

theorem in_concatTargetName : KeepsIn P (concatTargetNameExpr : Construct N A) := fun _ _ _ _ _ _ =>
  ResAll.bind ResAll.any fun _ _ => ResAll.bind ResAll.any fun _ _ =>
    ResAll.bind ResAll.any fun _ _ => concatTargetName_built _ _

theorem in_context : KeepsIn P (contextExpr : Construct N A) := fun _ _ _ hev hm hρ =>
  getEv_built hev hm hρ _ none_built

theorem in_disjointUnion : KeepsIn P (disjointUnionExpr O) := in_unary (keeps_disjointUnion O)

theorem in_fail : KeepsIn P (failExpr : Construct N A) := fun _ _ _ _ _ _ =>
  ResAll.bind ResAll.any fun _ _ => ResAll.fail

theorem in_assert : KeepsIn P (assertExpr O) := by
  intro ev m ρ hev hm hρ
  unfold assertExpr
  refine ResAll.bind (argument_built hev hm hρ _) fun v hv => ResAll.withOption fun x _ => ?_
  refine ResAll.bind ResAll.any fun p _ => ?_
  split
  · exact ResAll.ok hv
  · exact ResAll.fail

theorem in_assertNonEmpty : KeepsIn P (assertNonEmptyExpr : Construct N A) := by
  intro ev m ρ hev hm hρ
  unfold assertNonEmptyExpr
  refine ResAll.bind (argument_built hev hm hρ _) fun v hv => ?_
  split
  · exact ResAll.ok hv
  · exact ResAll.fail

theorem in_builtIn : ∀ c ∈ builtIns O, KeepsIn P c.2 := by
  simp only [builtIns, List.forall_mem_cons]
  exact ⟨in_var, in_quote, in_quasiQuote, in_onlyInQuasiQuote, in_onlyInQuasiQuote, in_if O, in_cond O,
    in_case, in_seqCase O, in_fail, in_assert O, in_assertNonEmpty, in_context, in_equal O, in_and O, in_or O,
    in_unary (keeps_negation O), in_unary keeps_flatten, in_unary (keeps_addition O),
    in_unary (keeps_multiplication O), in_unary (keeps_nubRight O), in_unary (keeps_nubLeft O),
    in_unary (keeps_range O), in_changeEnding, in_unary keeps_baseName, in_join, in_joinCmd, in_jsonEncode O,
    in_escapeChars, in_unary keeps_keys, in_unary keeps_enumerate, in_unary keeps_toSet,
    in_unary keeps_reversed, in_unary (keeps_lengthOf O), in_unary keeps_values, in_lookup, in_arrayAccess O,
    in_emptyMap, in_singletonMap, in_disjointUnion O, in_unary keeps_mapUnion, in_toSubdir O, in_fromSubdir O,
    in_foreach, in_foreachMap, in_zipWith, in_zipMap, in_foldLeft, in_let, in_env, in_concatTargetName,
    by simp⟩

/-! ## Evaluation -/

/-- What a program returns has the property, if what it is given has it. -/
def ProgKeeps (P : Val N A → Prop) : Prog N A → Prop
  | .done r => OptBuilt P r
  | .need _ next => ∀ o, OptBuilt P o → ProgKeeps P (next o)
  | .raw _ next => ∀ o, OptBuilt P o → ProgKeeps P (next o)

/-- What functions provided by the context return has the property, if their arguments have it. -/
def Provides (P : Val N A → Prop) (O : Ops N A) : Prop :=
  ∀ name r, O.provided name = some r → ProgKeeps P r.prog

theorem in_regular {r : Regular N A} (h : ProgKeeps P r.prog) : KeepsIn P r.construct := by
  intro ev m ρ hev hm hρ
  unfold Regular.construct
  generalize r.prog = p at h
  induction p with
  | done o => exact ResAll.option h
  | need k next ih =>
    simp only [Prog.run]
    split
    · split
      · exact ih _ (h none (by intro v hv; cases hv))
      · rename_i e he
        refine ResAll.bind (hev e ρ (assoc_built hm he) hρ) fun v hv => ih _ (h (some v) ?_)
        intro w hw
        cases hw
        exact hv
    · exact ResAll.fail
  | raw k next ih => exact ih _ (h _ fun v hv => assoc_built hm hv)

mutual
/-- All opaque parts of the function and of those it imports have the property. -/
def BuiltFn (P : Val N A → Prop) : Fn N A → Prop
  | .mk _ i e => Built P e ∧ BuiltFns P i
/-- All opaque parts of the functions have the property. -/
def BuiltFns (P : Val N A → Prop) : List (Str × Fn N A) → Prop
  | [] => True
  | (_, f) :: t => BuiltFn P f ∧ BuiltFns P t
end

theorem findFn_built {name : Str} {l : List (Str × Fn N A)} {g : Fn N A} (hl : BuiltFns P l)
    (h : findFn name l = some g) : BuiltFn P g := by
  induction l with
  | nil => cases h
  | cons e t ih =>
    obtain ⟨n, f⟩ := e
    simp only [findFn] at h
    obtain ⟨h1, h2⟩ := hl
    split at h
    · cases h
      exact h1
    · exact ih h2 h

theorem eval_built (hp : Provides P O) (n : Nat) (f : Fn N A) (hf : BuiltFn P f) :
    KeepsEv P (eval O n f) := by
  induction n generalizing f with
  | zero => intro e ρ _ _; exact ResAll.timeout
  | succ n ih =>
    intro e ρ he hρ
    unfold eval
    split
    · exact ResAll.bind (ResAll.mapRes fun x hx => ih f hf x ρ (built_list.1 he x hx) hρ) fun vs hvs =>
        ResAll.ok (built_list.2 hvs)
    · rename_i m
      refine ResAll.withOption fun t _ => ResAll.withOption fun ty _ => ?_
      split
      · refine ResAll.withOption fun g _ => ResAll.withOption fun name _ => ?_
        split
        · exact ResAll.fail
        · rename_i g hg
          have hi : BuiltFns P f.imports := by cases f; exact hf.2
          have hg := findFn_built hi hg
          exact ih g hg _ _ (by cases g; exact hg.1) (hρ.prune _)
      · split
        · rename_i r hr
          exact in_regular (hp _ _ hr) _ m ρ (ih f hf) (built_map.1 he) hρ
        · split
          · rename_i c hc
            exact in_builtIn O _ (assoc_some_mem hc) _ m ρ (ih f hf) (built_map.1 he) hρ
          · exact ResAll.fail
    · exact ResAll.ok he

theorem evaluate_built (hp : Provides P O) (n : Nat) (f : Fn N A) (hf : BuiltFn P f) (ρ : Env N A)
    (hρ : BuiltEnv P ρ) : ResAll (Built P) (evaluate O n f ρ) :=
  eval_built O hp n f hf _ _ (by cases f; exact hf.1) (hρ.prune _)

end Verif.Expr
