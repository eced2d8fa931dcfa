import Verif.Storage.System

/-!
# What happens to the content of a generation along a history, and histories obtained by running
operations one after the other
-/

namespace Verif.Storage

open Prog

variable {E : Env} {U : Bytes → Prop} {rk : Ranks E U}

/-- Whether an event is a garbage collection. -/
def Event.isGc : Event → Bool
  | .access => false
  | .gc _ => true

/-- Number of garbage collections in a history. -/
def gcs (es : List Event) : Nat := (es.filter Event.isGc).length

/-- What is in generation `g` of `σ` is in generation `g'` of `σ'`. -/
structure Kept (E : Env) (σ : World) (g : Nat) (σ' : World) (g' : Nat) : Prop where
  blob : ∀ d b, BlobAt E σ g d b → BlobAt E σ' g' d b
  tree : ∀ d b, TreeAt E σ g d b → TreeAt E σ' g' d b
  ac : ∀ k, (σ g (.ac k)).isSome → (σ' g' (.ac k)).isSome
  tc : ∀ k, (σ g (.tc k)).isSome → (σ' g' (.tc k)).isSome

theorem Kept.trans {σ σ' σ'' : World} {g g' g'' : Nat} (h : Kept E σ g σ' g')
    (h' : Kept E σ' g' σ'' g'') : Kept E σ g σ'' g'' :=
  ⟨fun d b hb => h'.blob d b (h.blob d b hb), fun d b hb => h'.tree d b (h.tree d b hb),
    fun k hk => h'.ac k (h.ac k hk), fun k hk => h'.tc k (h.tc k hk)⟩

theorem Le.kept {σ σ' : World} (h : Le E σ σ') (g : Nat) : Kept E σ g σ' g :=
  ⟨fun _ _ hb => hb.mono h, fun _ _ hb => hb.mono h, fun k => h.ac g k, fun k => h.tc g k⟩

theorem kept_congr {σ σ' : World} {g g' : Nat} (h : σ' g' = σ g) : Kept E σ g σ' g' := by
  refine ⟨fun d b hb => ?_, fun d b hb => ?_, fun k hk => ?_, fun k hk => ?_⟩
  · simpa only [BlobAt, LargeAt, h] using hb
  · simpa only [TreeAt, LargeAt, h] using hb
  · rw [h]; exact hk
  · rw [h]; exact hk

theorem CLe.kept {σ σ' : World} (h : CLe E σ σ') (g : Nat) : Kept E σ g σ' g := by
  refine ⟨fun _ _ hb => h.blobAt hb, fun _ _ hb => h.treeAt hb, fun k hk => ?_, fun k hk => ?_⟩
  · by_cases hg : g = 0
    · subst hg; rw [h.ac]; exact hk
    · rw [h.old g _ (by omega)]; exact hk
  · by_cases hg : g = 0
    · subst hg; rw [h.tc]; exact hk
    · rw [h.old g _ (by omega)]; exact hk

/-- A collection, completed or interrupted at any point, keeps all generations but the oldest. -/
theorem gc_kept (ok : E.OK U) {k : GcKind} {σ σ' : World} (hi : Inv E U rk σ) (h : Gc E k σ σ')
    (hk : k ≠ .all) {g : Nat} (hg : g + 1 < E.numGen) :
    ∃ g', (g' = g ∨ g' = g + 1) ∧ Kept E σ g σ' g' := by
  cases h with
  | compact _ hc => exact ⟨g, Or.inl rfl, (compacts_inv ok hi hc).2.1.kept g⟩
  | @rename _ _ σ1 ps D D' m hk hc hD he =>
    have h1 := (compacts_inv ok hi hc).2.1.kept g
    rw [← hD] at h1
    cases k with
    | rotate =>
      obtain ⟨D'', h2, h3⟩ := rotation_shifted E.numGen m D
      rw [show GcKind.rotate.steps E.numGen = rotation E.numGen from rfl, h2] at he
      cases he
      rcases h3.kept g hg with h | h
      · exact ⟨g, Or.inl rfl, h1.trans (kept_congr h)⟩
      · exact ⟨g + 1, Or.inr rfl, h1.trans (kept_congr h)⟩
    | noRotation =>
      have : D = D' := by cases m <;> simpa [GcKind.steps, execSteps] using he
      subst this
      exact ⟨g, Or.inl rfl, h1⟩
    | all => exact absurd rfl hk
  | removeAll _ => exact absurd rfl hk

theorem next_le {T : Prop} {fuel : Nat} {s s' : State} (hs : SInv E U rk T s)
    (h : Next E U rk fuel s .access s') : Le E s.σ s'.σ := by
  cases h with
  | start hp => exact Le.refl E _
  | @step σ σ' pre post op p p' σ₀ hstep =>
    exact (wp_step (M := mode E U rk T) hs.inv (hs.threads ⟨op, p, σ₀⟩ (by simp)) hstep).2.1
  | stop => exact Le.refl E _

theorem gcs_snoc (es : List Event) (e : Event) :
    gcs (es ++ [e]) = gcs es + (if e.isGc then 1 else 0) := by
  unfold gcs
  rw [List.filter_append, List.length_append]
  cases h : e.isGc <;> simp [List.filter, h]

theorem trace_kept (ok : E.OK U) {T : Prop} {fuel : Nat} (hT : Enough E U rk T fuel) {s s' : State}
    {es : List Event} (hs : SInv E U rk T s) (h : Trace E U rk fuel s es s')
    (hall : .gc .all ∉ es) {g : Nat} (hg : g + gcs es < E.numGen) :
    ∃ g', g' ≤ g + gcs es ∧ Kept E s.σ g s'.σ g' := by
  induction h with
  | nil => exact ⟨g, by omega, (Le.refl E _).kept g⟩
  | @snoc s1 s2 es e ht hn ih =>
    rw [gcs_snoc] at hg ⊢
    have hs1 := trace_inv ok hT hs ht
    obtain ⟨g1, h1, h2⟩ := ih (fun hm => hall (by simp [hm])) (by omega)
    cases e with
    | access =>
      exact ⟨g1, by omega, h2.trans ((next_le hs1 hn).kept g1)⟩
    | gc k =>
      simp only [Event.isGc, if_true] at hg ⊢
      cases hn with
      | gc hgc =>
        obtain ⟨g2, h3, h4⟩ := gc_kept (rk := rk) ok hs1.inv hgc (fun hk => hall (by simp [hk]))
          (g := g1) (by omega)
        exact ⟨g2, by omega, h2.trans h4⟩

/-! ## Histories obtained by running programs -/

theorem runWith_shift {A : Type} (p : Prog A) (σ : World) (n m : Nat) :
    (runWith (fun _ => false) n p σ).map (fun r => (r.1, r.2.1)) =
      (runWith (fun _ => false) m p σ).map (fun r => (r.1, r.2.1)) := by
  induction p generalizing σ n m with
  | ret a => rfl
  | halt => rfl
  | read l k ih => exact ih _ _ _ _
  | create l b k ih =>
    simp only [runWith, Bool.false_eq_true, if_false]
    split
    · exact ih _ _ _ _
    · exact ih _ _ _ _
  | replace l b k ih => exact ih _ _ _ _
  | remove l k ih => exact ih _ _ _ _

theorem run_bind {A B : Type} (p : Prog A) (f : A → Prog B) (σ : World) :
    run (p >>= f) σ = (run p σ).bind (fun r => run (f r.1) r.2) := by
  show run (p.bind f) σ = _
  unfold run
  induction p generalizing σ with
  | ret a => rfl
  | halt => rfl
  | read l k ih =>
    simp only [Prog.bind, runWith]
    rw [runWith_shift _ _ 1 0, runWith_shift (k _) _ 1 0]
    exact ih _ _
  | create l b k ih =>
    simp only [Prog.bind, runWith, Bool.false_eq_true, if_false]
    split
    · rw [runWith_shift _ _ 1 0, runWith_shift (k _) _ 1 0]
      exact ih _ _
    · rw [runWith_shift _ _ 1 0, runWith_shift (k _) _ 1 0]
      exact ih _ _
  | replace l b k ih =>
    simp only [Prog.bind, runWith, Bool.false_eq_true, if_false]
    rw [runWith_shift _ _ 1 0, runWith_shift (k _) _ 1 0]
    exact ih _ _
  | remove l k ih =>
    simp only [Prog.bind, runWith, Bool.false_eq_true, if_false]
    rw [runWith_shift _ _ 1 0, runWith_shift (k _) _ 1 0]
    exact ih _ _

theorem Trace.trans {fuel : Nat} {s s' s'' : State} {es es' : List Event}
    (h : Trace E U rk fuel s es s') (h' : Trace E U rk fuel s' es' s'') :
    Trace E U rk fuel s (es ++ es') s'' := by
  induction h' with
  | nil => simpa using h
  | snoc _ hn ih => rw [← List.append_assoc]; exact Trace.snoc ih hn

/-- The steps of a program running alone. -/
inductive Steps {A : Type} : World → Prog A → World → Prog A → Prop where
  | refl (σ : World) (p : Prog A) : Steps σ p σ p
  | head {σ σ' σ'' : World} {p p' p'' : Prog A} :
      Step σ p σ' p' → Steps σ' p' σ'' p'' → Steps σ p σ'' p''

theorem run_steps {A : Type} {p : Prog A} {σ σ' : World} {a : A} (h : run p σ = some (a, σ')) :
    Steps σ p σ' (.ret a) := by
  have key : ∀ (p : Prog A) (σ : World) (n : Nat),
      (runWith (fun _ => false) n p σ).map (fun r => (r.1, r.2.1)) = some (a, σ') →
      Steps σ p σ' (.ret a) := by
    intro p
    induction p with
    | ret a' =>
      intro σ n h
      simp only [runWith, Option.map_some, Option.some.injEq, Prod.mk.injEq] at h
      obtain ⟨rfl, rfl⟩ := h
      exact Steps.refl _ _
    | halt => intro σ n h; cases h
    | read l k ih => intro σ n h; exact Steps.head (Step.read σ l k) (ih _ _ _ h)
    | create l b k ih =>
      intro σ n h
      refine Steps.head (Step.create σ l b k) ?_
      simp only [runWith, Bool.false_eq_true, if_false] at h
      split at h
      · next hs => rw [if_pos hs]; exact ih _ _ _ h
      · next hs => rw [if_neg hs]; exact ih _ _ _ h
    | replace l b k ih => intro σ n h; exact Steps.head (Step.replace σ l b k) (ih _ _ _ h)
    | remove l k ih => intro σ n h; exact Steps.head (Step.remove σ l k) (ih _ _ _ h)
  exact key p σ 0 h

theorem steps_trace {fuel : Nat} {op : Op} {σ₀ σ σ' : World} {p p' : Prog Answer}
    {post : List Thread} (h : Steps σ p σ' p') :
    ∃ es, gcs es = 0 ∧ .gc .all ∉ es ∧
      Trace E U rk fuel ⟨σ, ⟨op, p, σ₀⟩ :: post⟩ es ⟨σ', ⟨op, p', σ₀⟩ :: post⟩ := by
  induction h with
  | refl => exact ⟨[], rfl, by simp, Trace.nil _⟩
  | @head σ σ' σ'' p p' p'' hs _ ih =>
    obtain ⟨es, h1, h2, h3⟩ := ih
    refine ⟨[.access] ++ es, ?_, ?_, Trace.trans (Trace.snoc (Trace.nil _)
      (Next.step (pre := []) hs)) h3⟩
    · simpa [gcs, Event.isGc] using h1
    · simpa using h2

/-- Running an operation alone is a history (before its thread goes away). -/
theorem run_trace {fuel : Nat} {op : Op} {σ σ' : World} {a : Answer} (hp : op.Pre E U rk σ)
    (h : run (op.run E fuel) σ = some (a, σ')) :
    ∃ es, gcs es = 0 ∧ .gc .all ∉ es ∧
      Trace E U rk fuel ⟨σ, []⟩ es ⟨σ', [⟨op, .ret a, σ⟩]⟩ := by
  obtain ⟨es, h1, h2, h3⟩ := steps_trace (E := E) (U := U) (rk := rk) (fuel := fuel) (op := op)
    (σ₀ := σ) (post := []) (run_steps h)
  refine ⟨[.access] ++ es, ?_, ?_, Trace.trans (Trace.snoc (Trace.nil _) (Next.start hp)) h3⟩
  · simpa [gcs, Event.isGc] using h1
  · simpa using h2

theorem stop_trace {fuel : Nat} {t : Thread} {σ : World} :
    Trace E U rk fuel ⟨σ, [t]⟩ [.access] ⟨σ, []⟩ :=
  Trace.snoc (es := []) (Trace.nil _) (Next.stop (pre := []) (post := []))

theorem compacts_steps {σ₀ σ σ' : World} {pre post : List (Prog Bool)} {p p' : Prog Bool}
    (hc : Compacts E σ₀ σ (pre ++ p :: post)) (h : Steps σ p σ' p') :
    Compacts E σ₀ σ' (pre ++ p' :: post) := by
  induction h with
  | refl => exact hc
  | head hs _ ih => exact ih (Compacts.step hc hs)

theorem Reachable.trace {fuel : Nat} {s s' : State} {es : List Event}
    (h : Reachable E U rk fuel s) (h' : Trace E U rk fuel s es s') : Reachable E U rk fuel s' := by
  obtain ⟨es₀, h₀⟩ := h
  exact ⟨_, h₀.trans h'⟩

end Verif.Storage
