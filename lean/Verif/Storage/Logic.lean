import Verif.Storage.Model

/-!
# Executions of storage programs and a program logic for them

`Step` is the meaning of the file-system accesses; `wp` is used to prove things about
programs that run while others change the storage.
-/

namespace Verif.Storage

/-- One file-system access. -/
inductive Step {A : Type} : World → Prog A → World → Prog A → Prop where
  | read (σ : World) (l : Loc) (k : Option Bytes → Prog A) :
      Step σ (.read l k) σ (k (σ.at l))
  | create (σ : World) (l : Loc) (b : Bytes) (k : Bool → Prog A) :
      Step σ (.create l b k) (if (σ.at l).isSome then σ else σ.set l (some b)) (k true)
  | replace (σ : World) (l : Loc) (b : Bytes) (k : Bool → Prog A) :
      Step σ (.replace l b k) (σ.set l (some b)) (k true)
  | remove (σ : World) (l : Loc) (k : Bool → Prog A) :
      Step σ (.remove l k) (σ.set l none) (k true)

/-- Run a program alone.  `fault n` tells whether the `n`-th access to the file system, if it is a
write, fails (for example because the disk is full).  Answers the result, the storage, and the number of accesses. -/
def runWith {A : Type} (fault : Nat → Bool) : Nat → Prog A → World → Option (A × World × Nat)
  | n, .ret a, σ => some (a, σ, n)
  | _, .halt, _ => none
  | n, .read l k, σ => runWith fault (n + 1) (k (σ.at l)) σ
  | n, .create l b k, σ =>
    if (σ.at l).isSome then runWith fault (n + 1) (k true) σ
    else if fault n then runWith fault (n + 1) (k false) σ
    else runWith fault (n + 1) (k true) (σ.set l (some b))
  | n, .replace l b k, σ =>
    if fault n then runWith fault (n + 1) (k false) σ
    else runWith fault (n + 1) (k true) (σ.set l (some b))
  | n, .remove l k, σ =>
    if fault n then runWith fault (n + 1) (k false) σ
    else runWith fault (n + 1) (k true) (σ.set l none)

/-- Run a program alone, without any fault. -/
def run {A : Type} (p : Prog A) (σ : World) : Option (A × World) :=
  (runWith (fun _ => false) 0 p σ).map (fun r => (r.1, r.2.1))

/-- An invariant, a relation the others keep to, and whether a program may fail to return. -/
structure Mode where
  I : World → Prop
  R : World → World → Prop
  T : Prop
  refl : ∀ σ, R σ σ
  trans : ∀ {σ σ' σ''}, R σ σ' → R σ' σ'' → R σ σ''

variable (M : Mode)

/-- Started in storage `σ`, the program keeps invariant and relation at each access, provided the
others do so between the accesses; and when it returns, the postcondition holds. -/
def wp {A : Type} : Prog A → (A → World → Prop) → World → Prop
  | .ret a, Q, σ => Q a σ
  | .halt, _, _ => M.T
  | .read l k, Q, σ => ∀ σ', M.R σ σ' → M.I σ' → wp (k (σ'.at l)) Q σ'
  | .create l b k, Q, σ => ∀ σ', M.R σ σ' → M.I σ' →
      M.I (if (σ'.at l).isSome then σ' else σ'.set l (some b)) ∧
      M.R σ' (if (σ'.at l).isSome then σ' else σ'.set l (some b)) ∧
      wp (k true) Q (if (σ'.at l).isSome then σ' else σ'.set l (some b))
  | .replace l b k, Q, σ => ∀ σ', M.R σ σ' → M.I σ' →
      M.I (σ'.set l (some b)) ∧ M.R σ' (σ'.set l (some b)) ∧ wp (k true) Q (σ'.set l (some b))
  | .remove l k, Q, σ => ∀ σ', M.R σ σ' → M.I σ' →
      M.I (σ'.set l none) ∧ M.R σ' (σ'.set l none) ∧ wp (k true) Q (σ'.set l none)

variable {M}

theorem wp_bind {A B : Type} (p : Prog A) (f : A → Prog B) (Q : B → World → Prop) (σ : World) :
    wp M (p >>= f) Q σ ↔ wp M p (fun a σ' => wp M (f a) Q σ') σ := by
  show wp M (p.bind f) Q σ ↔ _
  induction p generalizing σ with
  | ret a => exact Iff.rfl
  | halt => exact Iff.rfl
  | read l k ih => simp only [Prog.bind, wp, ih]
  | create l b k ih => simp only [Prog.bind, wp, ih]
  | replace l b k ih => simp only [Prog.bind, wp, ih]
  | remove l k ih => simp only [Prog.bind, wp, ih]

theorem wp_pure {A : Type} (a : A) (Q : A → World → Prop) (σ : World) :
    wp M (pure a) Q σ ↔ Q a σ := Iff.rfl

theorem wp_mono {A : Type} (p : Prog A) {Q Q' : A → World → Prop} (h : ∀ a σ, Q a σ → Q' a σ)
    (σ : World) (hp : wp M p Q σ) : wp M p Q' σ := by
  induction p generalizing σ with
  | ret a => exact h _ _ hp
  | halt => exact hp
  | read l k ih => intro σ' hr hi; exact ih _ _ (hp σ' hr hi)
  | create l b k ih =>
    intro σ' hr hi
    exact ⟨(hp σ' hr hi).1, (hp σ' hr hi).2.1, ih _ _ (hp σ' hr hi).2.2⟩
  | replace l b k ih =>
    intro σ' hr hi
    exact ⟨(hp σ' hr hi).1, (hp σ' hr hi).2.1, ih _ _ (hp σ' hr hi).2.2⟩
  | remove l k ih =>
    intro σ' hr hi
    exact ⟨(hp σ' hr hi).1, (hp σ' hr hi).2.1, ih _ _ (hp σ' hr hi).2.2⟩

/-- The storage a program ends with is related to the one it was started in. -/
theorem wp_strengthen {A : Type} (p : Prog A) {Q : A → World → Prop} (σ₀ σ : World)
    (h0 : M.R σ₀ σ) (hi0 : M.I σ)
    (hp : wp M p Q σ) : wp M p (fun a σ' => M.R σ₀ σ' ∧ M.I σ' ∧ Q a σ') σ := by
  induction p generalizing σ with
  | ret a => exact ⟨h0, hi0, hp⟩
  | halt => exact hp
  | read l k ih => intro σ' hr hi; exact ih _ _ (M.trans h0 hr) hi (hp σ' hr hi)
  | create l b k ih =>
    intro σ' hr hi
    obtain ⟨a, b, c⟩ := hp σ' hr hi
    exact ⟨a, b, ih _ _ (M.trans h0 (M.trans hr b)) a c⟩
  | replace l b k ih =>
    intro σ' hr hi
    obtain ⟨a, b, c⟩ := hp σ' hr hi
    exact ⟨a, b, ih _ _ (M.trans h0 (M.trans hr b)) a c⟩
  | remove l k ih =>
    intro σ' hr hi
    obtain ⟨a, b, c⟩ := hp σ' hr hi
    exact ⟨a, b, ih _ _ (M.trans h0 (M.trans hr b)) a c⟩

/-- Rule for sequencing: what is known after the first program includes relation and invariant. -/
theorem wp_seq {A B : Type} {p : Prog A} {f : A → Prog B} {Q : B → World → Prop} {σ : World}
    {Q' : A → World → Prop} (hi : M.I σ) (hp : wp M p Q' σ)
    (hf : ∀ a σ', M.R σ σ' → M.I σ' → Q' a σ' → wp M (f a) Q σ') : wp M (p >>= f) Q σ := by
  rw [wp_bind]
  refine wp_mono _ ?_ σ (wp_strengthen p σ σ (M.refl σ) hi hp)
  intro a σ' h
  exact hf a σ' h.1 h.2.1 h.2.2

theorem wp_post {A : Type} {p : Prog A} {Q Q' : A → World → Prop} {σ : World} (hi : M.I σ)
    (hp : wp M p Q' σ) (h : ∀ a σ', M.R σ σ' → M.I σ' → Q' a σ' → Q a σ') : wp M p Q σ := by
  refine wp_mono _ ?_ σ (wp_strengthen p σ σ (M.refl σ) hi hp)
  intro a σ' h'
  exact h a σ' h'.1 h'.2.1 h'.2.2

/-- Others may run before the program starts. -/
theorem wp_stable {A : Type} (p : Prog A) {Q : A → World → Prop}
    (hQ : ∀ a σ σ', M.R σ σ' → M.I σ' → Q a σ → Q a σ') {σ σ' : World} (hr : M.R σ σ')
    (hi : M.I σ') (hp : wp M p Q σ) : wp M p Q σ' := by
  cases p with
  | ret a => exact hQ _ _ _ hr hi hp
  | halt => exact hp
  | read l k => intro σ'' hr' hi'; exact hp σ'' (M.trans hr hr') hi'
  | create l b k => intro σ'' hr' hi'; exact hp σ'' (M.trans hr hr') hi'
  | replace l b k => intro σ'' hr' hi'; exact hp σ'' (M.trans hr hr') hi'
  | remove l k => intro σ'' hr' hi'; exact hp σ'' (M.trans hr hr') hi'

theorem wp_readL {l : Loc} {Q : Option Bytes → World → Prop} {σ : World}
    (h : ∀ σ', M.R σ σ' → M.I σ' → Q (σ'.at l) σ') : wp M (Prog.readL l) Q σ := h

theorem wp_createL {l : Loc} {b : Bytes} {Q : Bool → World → Prop} {σ : World}
    (h1 : ∀ σ', M.R σ σ' → M.I σ' → (σ'.at l).isSome → Q true σ')
    (h2 : ∀ σ', M.R σ σ' → M.I σ' → σ'.at l = none →
      M.I (σ'.set l (some b)) ∧ M.R σ' (σ'.set l (some b)) ∧ Q true (σ'.set l (some b))) :
    wp M (Prog.createL l b) Q σ := by
  intro σ' hr hi
  by_cases hs : (σ'.at l).isSome
  · simp only [if_pos hs]
    exact ⟨hi, M.refl _, h1 σ' hr hi hs⟩
  · simp only [if_neg hs]
    have : σ'.at l = none := by simpa using hs
    exact h2 σ' hr hi this

theorem wp_replaceL {l : Loc} {b : Bytes} {Q : Bool → World → Prop} {σ : World}
    (h : ∀ σ', M.R σ σ' → M.I σ' →
      M.I (σ'.set l (some b)) ∧ M.R σ' (σ'.set l (some b)) ∧ Q true (σ'.set l (some b))) :
    wp M (Prog.replaceL l b) Q σ := h

theorem wp_removeL {l : Loc} {Q : Bool → World → Prop} {σ : World}
    (h : ∀ σ', M.R σ σ' → M.I σ' →
      M.I (σ'.set l none) ∧ M.R σ' (σ'.set l none) ∧ Q true (σ'.set l none)) :
    wp M (Prog.removeL l) Q σ := h

/-- Rule for loops: `P a` is what is known after the call for `a`; `G` is the guarantee that the
call succeeds. -/
theorem wp_forAll {S : Type} {f : S → Prog Bool} (P : S → World → Prop) (G : Prop)
    (hP : ∀ a σ σ', M.R σ σ' → M.I σ' → P a σ → P a σ') (as : List S) (σ : World) (hi : M.I σ)
    (hf : ∀ a ∈ as, ∀ σ', M.R σ σ' → M.I σ' →
      wp M (f a) (fun r σ'' => (r = true → P a σ'') ∧ (G → r = true)) σ') :
    wp M (Prog.forAll f as)
      (fun r σ'' => (r = true → ∀ a ∈ as, P a σ'') ∧ (G → r = true)) σ := by
  induction as generalizing σ with
  | nil => exact ⟨fun _ a ha => absurd ha (by simp), fun _ => rfl⟩
  | cons a as ih =>
    refine wp_seq hi (hf a (by simp) σ (M.refl σ) hi) ?_
    intro r σ' hr' hi' hq
    cases r with
    | false =>
      simp only [Bool.false_eq_true, if_false, wp_pure]
      exact ⟨fun h => h.elim, fun g => by simpa using hq.2 g⟩
    | true =>
      simp only [if_true]
      have h1 := ih σ' hi' (fun a' ha' σ'' hr'' hi'' =>
        hf a' (List.mem_cons_of_mem _ ha') σ'' (M.trans hr' hr'') hi'')
      refine wp_post hi' h1 ?_
      intro r' σ'' hr'' hi'' hq'
      refine ⟨fun h => ?_, hq'.2⟩
      intro a' ha'
      rcases List.mem_cons.1 ha' with rfl | h'
      · exact hP _ _ _ hr'' hi'' (hq.1 rfl)
      · exact hq'.1 h a' h'

/-- Rule for `any_of`: `P` is what holds if the answer is positive. -/
theorem wp_anyOf {S : Type} {f : S → Prog Bool} (P : World → Prop) (G : S → Prop)
    (as : List S) (σ : World) (hi : M.I σ)
    (hf : ∀ a ∈ as, ∀ σ', M.R σ σ' → M.I σ' →
      wp M (f a) (fun r σ'' => (r = true → P σ'') ∧ (G a → r = true)) σ') :
    wp M (Prog.anyOf f as)
      (fun r σ'' => (r = true → P σ'') ∧ ((∃ a ∈ as, G a) → r = true)) σ := by
  induction as generalizing σ with
  | nil =>
    refine ⟨fun h => absurd h (by simp), ?_⟩
    rintro ⟨a, ha, -⟩
    exact absurd ha (by simp)
  | cons a as ih =>
    refine wp_seq hi (hf a (by simp) σ (M.refl σ) hi) ?_
    intro r σ' hr' hi' hq
    cases r with
    | true =>
      simp only [if_true, wp_pure]
      exact ⟨fun _ => hq.1 rfl, fun _ => trivial⟩
    | false =>
      simp only [Bool.false_eq_true, if_false]
      have h1 := ih σ' hi' (fun a' ha' σ'' hr'' hi'' =>
        hf a' (List.mem_cons_of_mem _ ha') σ'' (M.trans hr' hr'') hi'')
      refine wp_post hi' h1 ?_
      intro r' σ'' hr'' hi'' hq'
      refine ⟨hq'.1, ?_⟩
      rintro ⟨a', ha', hg⟩
      rcases List.mem_cons.1 ha' with rfl | h'
      · exact absurd (hq.2 hg) (by simp)
      · exact hq'.2 ⟨a', h', hg⟩

/-- A step of a program keeps invariant, relation and what is known about the program. -/
theorem wp_step {A : Type} {p p' : Prog A} {Q : A → World → Prop} {σ σ' : World} (hi : M.I σ)
    (h : wp M p Q σ) (hs : Step σ p σ' p') : M.I σ' ∧ M.R σ σ' ∧ wp M p' Q σ' := by
  cases hs with
  | read l k => exact ⟨hi, M.refl _, h σ (M.refl _) hi⟩
  | create l b k => exact h σ (M.refl _) hi
  | replace l b k => exact h σ (M.refl _) hi
  | remove l k => exact h σ (M.refl _) hi

/-- If programs must return, running one alone gives a result with the postcondition. -/
theorem wp_run {A : Type} {p : Prog A} {Q : A → World → Prop} {σ : World} (hT : ¬ M.T)
    (hi : M.I σ) (h : wp M p Q σ) : ∃ a σ', run p σ = some (a, σ') ∧ M.I σ' ∧ M.R σ σ' ∧ Q a σ' := by
  have key : ∀ n, ∃ a σ' m, runWith (fun _ => false) n p σ = some (a, σ', m) ∧ M.I σ' ∧
      M.R σ σ' ∧ Q a σ' := by
    induction p generalizing σ with
    | ret a => intro n; exact ⟨a, σ, n, rfl, hi, M.refl _, h⟩
    | halt => exact absurd h hT
    | read l k ih => intro n; exact ih _ hi (h σ (M.refl _) hi) (n + 1)
    | create l b k ih =>
      intro n
      obtain ⟨h1, h2, h3⟩ := h σ (M.refl _) hi
      by_cases hs : (σ.at l).isSome
      · simp only [if_pos hs] at h1 h2 h3
        simp only [runWith, if_pos hs]
        exact ih _ h1 h3 (n + 1)
      · simp only [if_neg hs] at h1 h2 h3
        simp only [runWith, if_neg hs, Bool.false_eq_true, if_false]
        obtain ⟨a, σ', m, e1, e2, e3, e4⟩ := ih _ h1 h3 (n + 1)
        exact ⟨a, σ', m, e1, e2, M.trans h2 e3, e4⟩
    | replace l b k ih =>
      intro n
      obtain ⟨h1, h2, h3⟩ := h σ (M.refl _) hi
      simp only [runWith, Bool.false_eq_true, if_false]
      obtain ⟨a, σ', m, e1, e2, e3, e4⟩ := ih _ h1 h3 (n + 1)
      exact ⟨a, σ', m, e1, e2, M.trans h2 e3, e4⟩
    | remove l k ih =>
      intro n
      obtain ⟨h1, h2, h3⟩ := h σ (M.refl _) hi
      simp only [runWith, Bool.false_eq_true, if_false]
      obtain ⟨a, σ', m, e1, e2, e3, e4⟩ := ih _ h1 h3 (n + 1)
      exact ⟨a, σ', m, e1, e2, M.trans h2 e3, e4⟩
  obtain ⟨a, σ', m, e1, e2, e3, e4⟩ := key 0
  exact ⟨a, σ', by simp [run, e1], e2, e3, e4⟩

end Verif.Storage
