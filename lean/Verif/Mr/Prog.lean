/-!
# Programs sharing a store

Several tasks of several processes work on the same files at the same time. A task is a program that in each step reads and changes
what is shared, or asks something of the outside; between any two steps, other tasks may do theirs. A task may also stop at any
point, as if the process was killed.
-/

namespace Verif.Mr

/-- Programs: give a result, fail, do one step on what is shared (going on with what was there before the step), or ask. -/
inductive Prog (W Q A α : Type) where
  | ret (a : α)
  | fail
  | act (f : W → W) (k : W → Prog W Q A α)
  | ask (q : Q) (k : A → Prog W Q A α)

variable {W Q A α β : Type}

/-- Go on with the result. -/
def Prog.bind : Prog W Q A α → (α → Prog W Q A β) → Prog W Q A β
  | .ret a, g => g a
  | .fail, _ => .fail
  | .act f k, g => .act f fun w => (k w).bind g
  | .ask q k, g => .ask q fun a => (k a).bind g

instance : Monad (Prog W Q A) where
  pure := .ret
  bind := Prog.bind

/-- Read. -/
def look (f : W → α) : Prog W Q A α := .act id fun w => .ret (f w)

/-- Read, and fail if there is nothing. -/
def need (f : W → Option α) : Prog W Q A α :=
  .act id fun w => match f w with
    | some a => .ret a
    | none => .fail

/-- Change. -/
def change (f : W → W) : Prog W Q A Unit := .act f fun _ => .ret ()

/-- Change, or fail and change nothing. -/
def tryTo (f : W → Option W) : Prog W Q A Unit :=
  .act (fun w => (f w).getD w) fun w => match f w with
    | some _ => .ret ()
    | none => .fail

/-- Ask. -/
def question (q : Q) : Prog W Q A A := .ask q .ret

/-! ## One program alone -/

/-- Running a program without others: what is asked, what is shared afterwards, and the result, if any. -/
def run (O : Q → A) : Prog W Q A α → W → List Q × W × Option α
  | .ret a, w => ([], w, some a)
  | .fail, w => ([], w, none)
  | .act f k, w => run O (k w) (f w)
  | .ask q k, w => (q :: (run O (k (O q)) w).1, (run O (k (O q)) w).2)

theorem run_bind (O : Q → A) (p : Prog W Q A α) (g : α → Prog W Q A β) (w : W) :
    run O (p.bind g) w = match run O p w with
      | (l, w', some a) => (l ++ (run O (g a) w').1, (run O (g a) w').2)
      | (l, w', none) => (l, w', none) := by
  induction p generalizing w with
  | ret a => rfl
  | fail => rfl
  | act f k ih => simp only [Prog.bind, run, ih]
  | ask q k ih =>
    simp only [Prog.bind, run, ih]
    rcases run O (k (O q)) w with ⟨l, w', _ | a⟩ <;> rfl

/-! ## What a program guarantees if others keep to the rules -/

/-- What is shared stays in order, and what was relied on stays so. -/
structure Rules (W Q A : Type) where
  inv : W → Prop
  grows : W → W → Prop
  refl : ∀ w, grows w w
  trans : ∀ {a b c : W}, grows a b → grows b c → grows a c
  honest : Q → A → Prop

/-- The program keeps to the rules, started in `w` or later, and its results are as wanted. -/
def Valid (R : Rules W Q A) : Prog W Q A α → W → (α → W → Prop) → Prop
  | .ret a, w, post => ∀ w', R.grows w w' → R.inv w' → post a w'
  | .fail, _, _ => True
  | .act f k, w, post => ∀ w', R.grows w w' → R.inv w' → R.inv (f w') ∧ R.grows w' (f w') ∧ Valid R (k w') (f w') post
  | .ask q k, w, post => ∀ w', R.grows w w' → R.inv w' → ∀ a, R.honest q a → Valid R (k a) w' post

variable {R : Rules W Q A}

theorem Valid.later {p : Prog W Q A α} {w w' : W} {post : α → W → Prop} (h : Valid R p w post) (hg : R.grows w w') :
    Valid R p w' post := by
  cases p with
  | ret a => exact fun v hv hi => h v (R.trans hg hv) hi
  | fail => trivial
  | act f k => exact fun v hv hi => h v (R.trans hg hv) hi
  | ask q k => exact fun v hv hi a ha => h v (R.trans hg hv) hi a ha

theorem Valid.bind {p : Prog W Q A α} {g : α → Prog W Q A β} {w : W} {post : β → W → Prop}
    (h : Valid R p w fun a w' => Valid R (g a) w' post) : Valid R (p.bind g) w post := by
  induction p generalizing w with
  | ret a =>
    simp only [Prog.bind]
    have h' : ∀ w', R.grows w w' → R.inv w' → Valid R (g a) w' post := h
    cases hg : g a with
    | ret b =>
      rw [hg] at h'
      exact fun v hv hi => h' v hv hi v (R.refl v) hi
    | fail => trivial
    | act f k =>
      rw [hg] at h'
      exact fun v hv hi => h' v hv hi v (R.refl v) hi
    | ask q k =>
      rw [hg] at h'
      exact fun v hv hi x hx => h' v hv hi v (R.refl v) hi x hx
  | fail => trivial
  | act f k ih =>
    intro v hv hi
    have := h v hv hi
    exact ⟨this.1, this.2.1, ih v this.2.2⟩
  | ask q k ih => exact fun v hv hi x hx => ih x (h v hv hi x hx)

theorem Valid.weaken {p : Prog W Q A α} {w : W} {post post' : α → W → Prop} (h : Valid R p w post)
    (hp : ∀ a w', R.grows w w' → R.inv w' → post a w' → post' a w') : Valid R p w post' := by
  induction p generalizing w with
  | ret a => exact fun v hv hi => hp a v hv hi (h v hv hi)
  | fail => trivial
  | act f k ih =>
    intro v hv hi
    have := h v hv hi
    exact ⟨this.1, this.2.1, ih v this.2.2 fun a w' hg hi' => hp a w' (R.trans hv (R.trans this.2.1 hg)) hi'⟩
  | ask q k ih => exact fun v hv hi x hx => ih x (h v hv hi x hx) fun a w' hg hi' => hp a w' (R.trans hv hg) hi'

/-- A program alone keeps to the rules as well. -/
theorem valid_run {p : Prog W Q A α} {w : W} {post : α → W → Prop} (h : Valid R p w post) (hi : R.inv w) (O : Q → A)
    (ho : ∀ q, R.honest q (O q)) : R.inv (run O p w).2.1 ∧ R.grows w (run O p w).2.1 ∧
      ∀ a, (run O p w).2.2 = some a → post a (run O p w).2.1 := by
  induction p generalizing w with
  | ret a => exact ⟨hi, R.refl w, fun b hb => by cases hb; exact h w (R.refl w) hi⟩
  | fail => exact ⟨hi, R.refl w, fun b hb => nomatch hb⟩
  | act f k ih =>
    obtain ⟨h1, h2, h3⟩ := h w (R.refl w) hi
    obtain ⟨a1, a2, a3⟩ := ih w h3 h1
    exact ⟨a1, R.trans h2 a2, a3⟩
  | ask q k ih => exact ih (O q) (h w (R.refl w) hi (O q) (ho q)) hi

/-! ## Many programs -/

/-- What is shared, and the tasks running, each with what it is for. -/
structure Pool (W Q A K α : Type) where
  world : W
  tasks : List (K × Prog W Q A α)

/-- How things go on: a task does its next step, is answered, or is gone; a new one is started; something else happens that others may
do at any time (`other`); or, when no task is running, something that needs exclusive access (`alone`). -/
inductive Step {K : Type} (start : K → Prog W Q A α) (honest : Q → A → Prop) (other alone : W → W → Prop) :
    Pool W Q A K α → Pool W Q A K α → Prop where
  | act (w : W) (pre post : List (K × Prog W Q A α)) (key : K) (f : W → W) (k : W → Prog W Q A α) :
      Step start honest other alone ⟨w, pre ++ (key, .act f k) :: post⟩ ⟨f w, pre ++ (key, k w) :: post⟩
  | ask (w : W) (pre post : List (K × Prog W Q A α)) (key : K) (q : Q) (k : A → Prog W Q A α) (a : A) (h : honest q a) :
      Step start honest other alone ⟨w, pre ++ (key, .ask q k) :: post⟩ ⟨w, pre ++ (key, k a) :: post⟩
  | gone (w : W) (pre post : List (K × Prog W Q A α)) (t : K × Prog W Q A α) :
      Step start honest other alone ⟨w, pre ++ t :: post⟩ ⟨w, pre ++ post⟩
  | spawn (w : W) (ts : List (K × Prog W Q A α)) (key : K) : Step start honest other alone ⟨w, ts⟩ ⟨w, (key, start key) :: ts⟩
  | other (w w' : W) (ts : List (K × Prog W Q A α)) (h : other w w') : Step start honest other alone ⟨w, ts⟩ ⟨w', ts⟩
  | alone (w w' : W) (h : alone w w') : Step start honest other alone ⟨w, []⟩ ⟨w', []⟩

/-- What may be reached from what is shared at first. -/
inductive Reach {K : Type} (start : K → Prog W Q A α) (honest : Q → A → Prop) (other alone : W → W → Prop) (w : W) :
    Pool W Q A K α → Prop where
  | start : Reach start honest other alone w ⟨w, []⟩
  | step {c c' : Pool W Q A K α} : Reach start honest other alone w c → Step start honest other alone c c' →
      Reach start honest other alone w c'

/-- A task may be run to its end without others doing anything. -/
theorem reach_run {K : Type} {start : K → Prog W Q A α} {honest : Q → A → Prop} {other alone : W → W → Prop} {w₀ w : W} (O : Q → A)
    (ho : ∀ q, honest q (O q)) (key : K) (p : Prog W Q A α) (ts : List (K × Prog W Q A α)) {a : α}
    (h : Reach start honest other alone w₀ ⟨w, (key, p) :: ts⟩) (hr : (run O p w).2.2 = some a) :
    Reach start honest other alone w₀ ⟨(run O p w).2.1, (key, .ret a) :: ts⟩ := by
  induction p generalizing w with
  | ret b => cases hr; exact h
  | fail => cases hr
  | act f k ih => exact ih w (.step h (.act w [] ts key f k)) hr
  | ask q k ih => exact ih (O q) (.step h (.ask w [] ts key q k (O q) (ho q))) hr

theorem reach_valid {K : Type} {start : K → Prog W Q A α} {other alone : W → W → Prop} {post : K → α → W → Prop} {w : W}
    (hw : R.inv w) (hs : ∀ key v, R.inv v → Valid R (start key) v (post key))
    (ho : ∀ v v', other v v' → R.inv v → R.inv v' ∧ R.grows v v') (ha : ∀ v v', alone v v' → R.inv v → R.inv v')
    {c : Pool W Q A K α} (h : Reach start R.honest other alone w c) :
    R.inv c.world ∧ ∀ t ∈ c.tasks, Valid R t.2 c.world (post t.1) := by
  induction h with
  | start => exact ⟨hw, fun t ht => absurd ht List.not_mem_nil⟩
  | step _ hstep ih =>
    obtain ⟨hi, hv⟩ := ih
    cases hstep with
    | act v pre pst key f k =>
      obtain ⟨h1, h2, h3⟩ := hv (key, .act f k) (by simp) v (R.refl v) hi
      refine ⟨h1, fun t ht => ?_⟩
      simp only [List.mem_append, List.mem_cons] at ht
      rcases ht with ht | rfl | ht
      · exact (hv t (by simp [ht])).later h2
      · exact h3
      · exact (hv t (by simp [ht])).later h2
    | ask v pre pst key q k a hq =>
      refine ⟨hi, fun t ht => ?_⟩
      simp only [List.mem_append, List.mem_cons] at ht
      rcases ht with ht | rfl | ht
      · exact hv t (by simp [ht])
      · exact hv (key, .ask q k) (by simp) v (R.refl v) hi a hq
      · exact hv t (by simp [ht])
    | gone v pre pst t =>
      refine ⟨hi, fun t' ht => hv t' ?_⟩
      simp only [List.mem_append, List.mem_cons] at ht ⊢
      rcases ht with ht | ht
      · exact .inl ht
      · exact .inr (.inr ht)
    | spawn v ts key =>
      refine ⟨hi, fun t ht => ?_⟩
      rcases List.mem_cons.1 ht with rfl | ht
      · exact hs key v hi
      · exact hv t ht
    | other v v' ts h =>
      obtain ⟨h1, h2⟩ := ho v v' h hi
      exact ⟨h1, fun t ht => (hv t ht).later h2⟩
    | alone v v' h => exact ⟨ha v v' h hi, fun t ht => absurd ht List.not_mem_nil⟩

/-! ## The building blocks -/

theorem valid_look {f : W → α} {w : W} {post : α → W → Prop}
    (h : ∀ w', R.grows w w' → R.inv w' → ∀ v, R.grows w' v → R.inv v → post (f w') v) : Valid R (look f) w post :=
  fun w' hg hi => ⟨hi, R.refl w', fun v hv hv' => h w' hg hi v hv hv'⟩

theorem valid_need {f : W → Option α} {w : W} {post : α → W → Prop}
    (h : ∀ w' a, R.grows w w' → R.inv w' → f w' = some a → ∀ v, R.grows w' v → R.inv v → post a v) :
    Valid R (need f) w post := fun w' hg hi => by
  refine ⟨hi, R.refl w', ?_⟩
  cases hf : f w' with
  | none => simp only [hf]; trivial
  | some a => simp only [hf]; exact fun v hv hv' => h w' a hg hi hf v hv hv'

theorem valid_change {f : W → W} {w : W} {post : Unit → W → Prop}
    (h : ∀ w', R.grows w w' → R.inv w' → R.inv (f w') ∧ R.grows w' (f w') ∧ ∀ v, R.grows (f w') v → R.inv v → post () v) :
    Valid R (change f) w post := fun w' hg hi =>
  ⟨(h w' hg hi).1, (h w' hg hi).2.1, (h w' hg hi).2.2⟩

theorem valid_tryTo {f : W → Option W} {w : W} {post : Unit → W → Prop}
    (h : ∀ w' v', R.grows w w' → R.inv w' → f w' = some v' →
      R.inv v' ∧ R.grows w' v' ∧ ∀ v, R.grows v' v → R.inv v → post () v) :
    Valid R (tryTo f) w post := fun w' hg hi => by
  cases hf : f w' with
  | none =>
    refine ⟨?_, ?_, ?_⟩
    · simp only [hf, Option.getD_none]; exact hi
    · simp only [hf, Option.getD_none]; exact R.refl w'
    · simp only [hf]; trivial
  | some v' =>
    obtain ⟨h1, h2, h3⟩ := h w' v' hg hi hf
    refine ⟨?_, ?_, ?_⟩
    · simp only [hf, Option.getD_some]; exact h1
    · simp only [hf, Option.getD_some]; exact h2
    · simp only [hf, Option.getD_some]; exact h3

theorem valid_question {q : Q} {w : W} {post : A → W → Prop}
    (h : ∀ a, R.honest q a → ∀ v, R.grows w v → R.inv v → post a v) : Valid R (question q) w post :=
  fun _ hg _ a ha v hv hi => h a ha v (R.trans hg hv) hi

theorem valid_ret {a : α} {w : W} {post : α → W → Prop} (h : ∀ v, R.grows w v → R.inv v → post a v) :
    Valid R (.ret a) w post := h

end Verif.Mr
