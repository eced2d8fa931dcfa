import Verif.Remote.Download
import Mathlib.Data.List.Perm.Subperm
import Mathlib.Data.List.Forall2
import Mathlib.Data.List.Dedup

/-!
# C82: retrieving objects from a remote storage
-/

namespace Verif.Remote.Download

open Verif.Remote.Upload (Closed Grows Below Safe safe)

variable {δ : Type} {N : Net δ} {split : Bool} {kids : δ → List δ}

/-- What is assumed on the source: objects refer to the entries of trees only; trees that cannot be read are not
delivered otherwise; and data is what was asked for. -/
structure Net.OK (N : Net δ) (kids : δ → List δ) : Prop where
  kids : ∀ d, ∀ k ∈ kids d, N.tree d ∧ k ∈ N.sub d
  steady : ∀ d, N.flaky d → ¬ N.given d
  honest : N.honest

/-! ## Tasks -/

/-- What a task will store comes with everything it refers to. -/
def Fine (N : Net δ) (kids : δ → List δ) (s : List δ) : Task δ → Prop
  | .start d | .missing d | .splice d => N.given d → ∀ k ∈ kids d, k ∈ s
  | .fetch infos next => (∀ d ∈ infos, N.given d → ∀ k ∈ kids d, k ∈ s) ∧ ∀ d ∈ next, N.given d → ∀ k ∈ kids d, k ∈ s
  | .store _ todo next => (∀ d ∈ todo, ∀ k ∈ kids d, k ∈ s) ∧ ∀ d ∈ next, N.given d → ∀ k ∈ kids d, k ∈ s
  | .finished _ => True

/-- The objects `X` are there if the task finishes without failure. -/
def Will (X : List δ) (s : List δ) : Task δ → Prop
  | .start d | .missing d | .splice d => ∀ x ∈ X, x = d
  | .fetch infos none => ∀ x ∈ X, x ∈ infos
  | .fetch _ (some d) => ∀ x ∈ X, x = d
  | .store false _ _ => True
  | .store true todo none => ∀ x ∈ X, x ∈ todo ∨ x ∈ s
  | .store true _ (some d) => ∀ x ∈ X, x = d
  | .finished true => ∀ x ∈ X, x ∈ s
  | .finished false => True

/-- An object, or a chunk of one. -/
def Part (N : Net δ) (P : δ → Prop) (d : δ) : Prop := P d ∨ ∃ p, P p ∧ d ∈ N.chunks p

/-- What a task may store. -/
def Only (N : Net δ) (P : δ → Prop) : Task δ → Prop
  | .start d | .missing d | .splice d => P d
  | .fetch infos next => (∀ d ∈ infos, Part N P d) ∧ ∀ d ∈ next, P d
  | .store _ todo next => (∀ d ∈ todo, Part N P d) ∧ ∀ d ∈ next, P d
  | .finished _ => True

theorem Fine.mono {s s' : List δ} (h : ∀ d ∈ s, d ∈ s') {t : Task δ} (ht : Fine N kids s t) : Fine N kids s' t := by
  cases t with
  | start d => exact fun hg k hk => h k (ht hg k hk)
  | missing d => exact fun hg k hk => h k (ht hg k hk)
  | splice d => exact fun hg k hk => h k (ht hg k hk)
  | fetch infos next => exact ⟨fun d hd hg k hk => h k (ht.1 d hd hg k hk), fun d hd hg k hk => h k (ht.2 d hd hg k hk)⟩
  | store ok todo next => exact ⟨fun d hd k hk => h k (ht.1 d hd k hk), fun d hd hg k hk => h k (ht.2 d hd hg k hk)⟩
  | finished ok => trivial

theorem Will.mono {X s s' : List δ} (h : ∀ d ∈ s, d ∈ s') {t : Task δ} (ht : Will X s t) : Will X s' t := by
  cases t with
  | start d => exact ht
  | missing d => exact ht
  | splice d => exact ht
  | fetch infos next =>
    cases next with
    | none => exact ht
    | some d => exact ht
  | store ok todo next =>
    cases ok with
    | false => trivial
    | true =>
      cases next with
      | none => exact fun x hx => (ht x hx).imp id (h x)
      | some d => exact ht
  | finished ok =>
    cases ok with
    | false => trivial
    | true => exact fun x hx => h x (ht x hx)

theorem Grows.one {s : List δ} {d : δ} (h : ∀ k ∈ kids d, k ∈ s) : Grows kids s (s ++ [d]) := by
  refine ⟨[d], rfl, fun a x b e k hk => ?_⟩
  cases a with
  | nil =>
    injection e with e _
    subst e
    rw [List.append_nil]
    exact h k hk
  | cons y a =>
    injection e with _ e
    exact absurd e (by simp)

/-- If there are as many blobs as were asked for, all are there. -/
theorem Fetched.all {infos r : List δ} (h : Fetched N infos r) (hh : N.honest) (hl : r.length = infos.length) :
    ∀ d ∈ infos, d ∈ r := by
  have hp := (List.subperm_of_subset h.nodup (h.honest hh)).perm_of_length_le (Nat.le_of_eq hl.symm)
  exact fun d hd => hp.mem_iff.2 hd

theorem Step.sound (hN : N.OK kids) {t t' : Task δ} {s s' : List δ} (h : Step N split t s t' s') (hf : Fine N kids s t) :
    Grows kids s s' ∧ Fine N kids s' t' := by
  cases h with
  | plain => exact ⟨.refl _, by simpa [Fine] using hf⟩
  | chunks _ => exact ⟨.refl _, hf⟩
  | missing hc hm =>
    refine ⟨.refl _, fun d hd _ k hk => absurd (hN.kids d k hk).1 (hc d (hm.sub d hd)), ?_⟩
    simpa [Fine] using hf
  | fetch hr => exact ⟨.refl _, fun d hd k hk => hf.1 d (hr.honest hN.honest d hd) (hr.given d hd (hr.honest hN.honest d hd)) k hk, hf.2⟩
  | stored =>
    have hg := Grows.one (hf.1 _ List.mem_cons_self)
    exact ⟨hg, fun d hd k hk => hg.mem (hf.1 d (by simp [hd]) k hk), fun d hd h k hk => hg.mem (hf.2 d hd h k hk)⟩
  | failed => exact ⟨.refl _, fun d hd => hf.1 d (by simp [hd]), hf.2⟩
  | wrong => exact ⟨.refl _, trivial⟩
  | right => exact ⟨.refl _, trivial⟩
  | next => exact ⟨.refl _, hf.2 _ rfl⟩
  | spliced hg _ => exact ⟨Grows.one (hf hg), trivial⟩
  | again => exact ⟨.refl _, by simpa [Fine] using hf⟩

theorem Step.mem {t t' : Task δ} {s s' : List δ} (h : Step N split t s t' s') : ∀ d ∈ s, d ∈ s' := by
  cases h <;> simp +contextual

theorem Step.will (hh : N.honest) {X : List δ} {t t' : Task δ} {s s' : List δ} (h : Step N split t s t' s') (hw : Will X s t) :
    Will X s' t' := by
  cases h with
  | plain => exact fun x hx => by rw [hw x hx]; simp
  | chunks _ => exact hw
  | missing hc hm => exact hw
  | @fetch infos next s r hr =>
    by_cases hl : r.length = infos.length
    · cases next with
      | none =>
        rw [show decide (r.length = infos.length) = true from decide_eq_true hl]
        exact fun x hx => .inl (hr.all hh hl x (hw x hx))
      | some d =>
        rw [show decide (r.length = infos.length) = true from decide_eq_true hl]
        exact hw
    · rw [show decide (r.length = infos.length) = false from decide_eq_false hl]
      trivial
  | @stored ok d todo next s =>
    cases ok with
    | false => trivial
    | true =>
      cases next with
      | none =>
        intro x hx
        rcases hw x hx with h | h
        · rcases List.mem_cons.1 h with rfl | h
          · exact .inr (by simp)
          · exact .inl h
        · exact .inr (by simp [h])
      | some d => exact hw
  | failed => trivial
  | wrong => trivial
  | right => exact fun x hx => (hw x hx).resolve_left (by simp)
  | next => exact hw
  | spliced _ _ => exact fun x hx => by rw [hw x hx]; simp
  | again => exact fun x hx => by rw [hw x hx]; simp

theorem Step.only (hh : N.honest) {P : δ → Prop} {t t' : Task δ} {s s' : List δ} (h : Step N split t s t' s') (ho : Only N P t) :
    Only N P t' ∧ ∀ d ∈ s', d ∈ s ∨ Part N P d := by
  cases h with
  | plain => exact ⟨⟨by simpa using .inl ho, by simp⟩, fun _ => .inl⟩
  | chunks _ => exact ⟨ho, fun _ => .inl⟩
  | missing hc hm => exact ⟨⟨fun c hc => .inr ⟨_, ho, hm.sub c hc⟩, by simpa [Only] using ho⟩, fun _ => .inl⟩
  | fetch hr => exact ⟨⟨fun d hd => ho.1 d (hr.honest hh d hd), ho.2⟩, fun _ => .inl⟩
  | stored =>
    refine ⟨⟨fun d hd => ho.1 d (by simp [hd]), ho.2⟩, fun d hd => ?_⟩
    rcases List.mem_append.1 hd with hd | hd
    · exact .inl hd
    · rw [List.mem_singleton.1 hd]
      exact .inr (ho.1 _ (by simp))
  | failed => exact ⟨⟨fun d hd => ho.1 d (by simp [hd]), ho.2⟩, fun _ => .inl⟩
  | wrong => exact ⟨trivial, fun _ => .inl⟩
  | right => exact ⟨trivial, fun _ => .inl⟩
  | next => exact ⟨ho.2 _ rfl, fun _ => .inl⟩
  | spliced _ _ =>
    refine ⟨trivial, fun d hd => ?_⟩
    rcases List.mem_append.1 hd with hd | hd
    · exact .inl hd
    · rw [List.mem_singleton.1 hd]
      exact .inr (.inl ho)
  | again => exact ⟨⟨by simpa using .inl ho, by simp⟩, fun _ => .inl⟩

/-! ## Tasks in parallel -/

theorem Run.sound (hN : N.OK kids) {l l' : List (Task δ)} {s s' : List δ} (h : Run N split l s l' s') :
    (∀ t ∈ l, Fine N kids s t) → Grows kids s s' := by
  induction h with
  | refl => exact fun _ => .refl _
  | @step a t b t' s s' l s'' hs _ ih =>
    intro hf
    obtain ⟨h1, h2⟩ := hs.sound hN (hf t (by simp))
    refine h1.trans (ih fun x hx => ?_)
    rcases List.mem_append.1 hx with hx | hx
    · exact (hf x (by simp [hx])).mono fun d hd => h1.mem hd
    · rcases List.mem_cons.1 hx with rfl | hx
      · exact h2
      · exact (hf x (by simp [hx])).mono fun d hd => h1.mem hd

theorem Run.will (hh : N.honest) {l l' : List (Task δ)} {s s' : List δ} (h : Run N split l s l' s') :
    ∀ Xs : List (List δ), List.Forall₂ (fun X t => Will X s t) Xs l → List.Forall₂ (fun X t => Will X s' t) Xs l' := by
  induction h with
  | refl => exact fun _ h => h
  | @step a t b t' s s' l s'' hs hrest ih =>
    intro Xs hX
    refine ih Xs ?_
    have hm := hs.mem
    clear ih hrest
    induction a generalizing Xs with
    | nil =>
      cases hX with
      | cons h1 h2 => exact .cons (hs.will hh h1) (h2.imp fun _ _ h => h.mono hm)
    | cons x a iha =>
      cases hX with
      | cons h1 h2 => exact .cons (h1.mono hm) (iha _ h2)

theorem Run.only (hh : N.honest) {P : δ → Prop} {l l' : List (Task δ)} {s s' : List δ} (h : Run N split l s l' s') :
    (∀ t ∈ l, Only N P t) → ∀ d ∈ s', d ∈ s ∨ Part N P d := by
  induction h with
  | refl => exact fun _ _ => .inl
  | @step a t b t' s s' l s'' hs _ ih =>
    intro ho d hd
    obtain ⟨h1, h2⟩ := hs.only hh (ho t (by simp))
    rcases ih (fun x hx => by
      rcases List.mem_append.1 hx with hx | hx
      · exact ho x (by simp [hx])
      · rcases List.mem_cons.1 hx with rfl | hx
        · exact h1
        · exact ho x (by simp [hx])) d hd with h | h
    · exact h2 d h
    · exact .inr h

theorem finished_all {s : List δ} : ∀ {Xs : List (List δ)} {oks : List Bool},
    List.Forall₂ (fun X t => Will X s t) Xs (oks.map Task.finished) → false ∉ oks → ∀ X ∈ Xs, ∀ x ∈ X, x ∈ s
  | [], _, _, _ => fun _ h => (nomatch h)
  | X :: Xs, oks, h, hn => by
    cases oks with
    | nil => cases h
    | cons ok oks =>
      cases h with
      | cons h1 h2 =>
        cases ok with
        | false => exact absurd (by simp) hn
        | true =>
          intro Y hY
          rcases List.mem_cons.1 hY with rfl | hY
          · exact h1
          · exact finished_all h2 (fun h => hn (by simp [h])) Y hY

/-! ## The parallel variant -/

theorem parallel_sound (hN : N.OK kids) : ∀ (n : Nat) (req s done : List δ) (ok : Bool) (s' done' : List δ),
    Parallel N split n req s done ok s' done' → (∀ d ∈ done, d ∈ s) →
      Grows kids s s' ∧ (∀ d ∈ done', d ∈ s') ∧ (ok = true → ∀ d ∈ req, d ∈ s')
  | 0, _, _, _, _, _, _, h, _ => h.elim
  | n + 1, req, s, done, ok, s', done', h, hd => by
    rcases h with ⟨h1, rfl, rfl, rfl⟩ | ⟨todo, m, ht, hm, h⟩
    · exact ⟨.refl _, hd, fun _ d hr => hd d (h1 d hr)⟩
    · rcases h with ⟨_, rfl, rfl, rfl⟩ | ⟨pre, hp, h⟩
      · exact ⟨.refl _, hd, (nomatch ·)⟩
      · rcases h with ⟨hr, rfl⟩ | ⟨s1, done1, oks, hr, hrun, h⟩
        · obtain ⟨k1, k2, _⟩ := parallel_sound hN n pre s done false s' done' hr hd
          exact ⟨k1, k2, (nomatch ·)⟩
        · obtain ⟨k1, k2, k3⟩ := parallel_sound hN n pre s done true s1 done1 hr hd
          have hg := hrun.sound hN fun t ht => by
            obtain ⟨d, hd, rfl⟩ := List.mem_map.1 ht
            intro hgiven k hk
            obtain ⟨j1, j2⟩ := hN.kids d k hk
            obtain ⟨l, hl, hs⟩ := hp.1 d hd j1
            refine k3 rfl k (hs k ?_)
            cases hl with
            | read => exact j2
            | failed hfl => exact absurd hgiven (hN.steady d hfl)
          have hgm : ∀ d ∈ s, d ∈ s' := fun d hd => hg.mem (k1.mem hd)
          have hw := hrun.will hN.honest (m.map fun d => [d]) (by
            rw [List.forall₂_map_left_iff, List.forall₂_map_right_iff]
            exact List.forall₂_same.2 fun d _ x hx => List.mem_singleton.1 hx)
          rcases h with ⟨_, rfl, rfl⟩ | ⟨hf, rfl, rfl⟩
          · exact ⟨k1.trans hg, fun d hd => hg.mem (k2 d hd), (nomatch ·)⟩
          · have htodo : ∀ d ∈ todo, d ∈ s' := fun d hd => by
              by_cases hdm : d ∈ m
              · exact finished_all hw hf [d] (List.mem_map_of_mem hdm) d (by simp)
              · exact hgm d (hm.all d hd hdm)
            refine ⟨k1.trans hg, fun d hd => ?_, fun _ d hr => ?_⟩
            · rcases List.mem_append.1 hd with hd | hd
              · exact htodo d hd
              · exact hg.mem (k2 d hd)
            · by_cases hdd : d ∈ done
              · exact hgm d (hd d hdd)
              · exact htodo d ((ht d).2 ⟨hr, hdd⟩)

theorem parallel_only (hh : N.honest) {P : δ → Prop} (hP : ∀ d, P d → N.tree d → ∀ k ∈ N.sub d, P k) :
    ∀ (n : Nat) (req s done : List δ) (ok : Bool) (s' done' : List δ), Parallel N split n req s done ok s' done' →
      (∀ d ∈ req, P d) → ∀ d ∈ s', d ∈ s ∨ Part N P d
  | 0, _, _, _, _, _, _, h, _ => h.elim
  | n + 1, req, s, done, ok, s', done', h, hd => by
    rcases h with ⟨_, rfl, rfl, rfl⟩ | ⟨todo, m, ht, hm, h⟩
    · exact fun _ => .inl
    · rcases h with ⟨_, rfl, rfl, rfl⟩ | ⟨pre, hp, h⟩
      · exact fun _ => .inl
      · have hm' : ∀ d ∈ m, P d := fun d h => hd d ((ht d).1 (hm.sub d h)).1
        have hpre : ∀ d ∈ pre, P d := fun k hk => by
          obtain ⟨d, h1, h2, h3⟩ := hp.2 k hk
          exact hP d (hm' d h1) h2 k h3
        rcases h with ⟨hr, rfl⟩ | ⟨s1, done1, oks, hr, hrun, h⟩
        · exact parallel_only hh hP n pre s done false s' done' hr hpre
        · intro d hds
          rcases hrun.only hh (P := P) (fun t ht => by
            obtain ⟨d, h1, rfl⟩ := List.mem_map.1 ht
            exact hm' d h1) d hds with h | h
          · exact parallel_only hh hP n pre s done true s1 done1 hr hpre d h
          · exact .inr h

/-! ## The sequential variant -/

theorem trees_sound {rec : List δ → List δ → Bool → List δ → Prop} {m : List δ} {s s' : List δ} {ok : Bool}
    (h : Trees N rec m s ok s')
    (hrec : ∀ l s ok s', rec l s ok s' → Grows kids s s' ∧ (ok = true → ∀ d ∈ l, d ∈ s')) :
    Grows kids s s' ∧ (ok = true → ∀ d ∈ m, N.tree d → ∃ l, Entries N d (some l) ∧ ∀ k ∈ l, k ∈ s') := by
  induction h with
  | nil => exact ⟨.refl _, fun _ _ h => (nomatch h)⟩
  | blob hb _ ih =>
    refine ⟨ih.1, fun hok x hx ht => ?_⟩
    rcases List.mem_cons.1 hx with rfl | hx
    · exact absurd ht hb
    · exact ih.2 hok x hx ht
  | invalid _ _ => exact ⟨.refl _, (nomatch ·)⟩
  | fail _ _ hr => exact ⟨(hrec _ _ _ _ hr).1, (nomatch ·)⟩
  | tree _ he hr _ ih =>
    obtain ⟨k1, k2⟩ := hrec _ _ _ _ hr
    refine ⟨k1.trans ih.1, fun hok x hx ht => ?_⟩
    rcases List.mem_cons.1 hx with rfl | hx
    · exact ⟨_, he, fun k hk => ih.1.mem (k2 rfl k hk)⟩
    · exact ih.2 hok x hx ht

theorem sequential_sound (hN : N.OK kids) : ∀ (n : Nat) (req s : List δ) (ok : Bool) (s' : List δ),
    Sequential N n req s ok s' → Grows kids s s' ∧ (ok = true → ∀ d ∈ req, d ∈ s')
  | 0, _, _, _, _, h => h.elim
  | n + 1, req, s, ok, s', ⟨m, hm, h⟩ => by
    rcases h with ⟨ht, rfl⟩ | ⟨s1, ht, hrun⟩
    · exact ⟨(trees_sound ht (sequential_sound hN n)).1, (nomatch ·)⟩
    · obtain ⟨k1, k2⟩ := trees_sound ht (sequential_sound hN n)
      have hg := hrun.sound hN fun t ht => by
        rw [List.mem_singleton.1 ht]
        refine ⟨fun d hd hgiven k hk => ?_, by simp⟩
        obtain ⟨j1, j2⟩ := hN.kids d k hk
        obtain ⟨l, hl, hs⟩ := k2 rfl d hd j1
        refine hs k ?_
        cases hl with
        | read => exact j2
        | failed hfl => exact absurd hgiven (hN.steady d hfl)
      have hw := hrun.will hN.honest [m] (.cons (fun _ h => h) .nil)
      refine ⟨k1.trans hg, fun hok d hd => ?_⟩
      subst hok
      by_cases hdm : d ∈ m
      · exact finished_all (oks := [true]) hw (by simp) m (by simp) d hdm
      · exact hg.mem (k1.mem (hm.all d hd hdm))

theorem trees_only {rec : List δ → List δ → Bool → List δ → Prop} {P : δ → Prop} {Q : δ → Prop} {m : List δ} {s s' : List δ}
    {ok : Bool} (h : Trees N rec m s ok s') (hP : ∀ d, P d → N.tree d → ∀ k ∈ N.sub d, P k)
    (hrec : ∀ l s ok s', rec l s ok s' → (∀ d ∈ l, P d) → ∀ d ∈ s', d ∈ s ∨ Q d) :
    (∀ d ∈ m, P d) → ∀ d ∈ s', d ∈ s ∨ Q d := by
  have hent : ∀ {d l}, P d → N.tree d → Entries N d (some l) → ∀ k ∈ l, P k := by
    intro d l hd ht he k hk
    cases he with
    | read => exact hP d hd ht k hk
    | failed _ => cases hk
  induction h with
  | nil => exact fun _ _ => .inl
  | blob _ _ ih => exact fun hm => ih fun d hd => hm d (by simp [hd])
  | invalid _ _ => exact fun _ _ => .inl
  | fail ht he hr => exact fun hm => hrec _ _ _ _ hr (hent (hm _ (by simp)) ht he)
  | tree ht he hr _ ih =>
    intro hm d hd
    rcases ih (fun d hd => hm d (by simp [hd])) d hd with h | h
    · exact hrec _ _ _ _ hr (hent (hm _ (by simp)) ht he) d h
    · exact .inr h

theorem sequential_only (hh : N.honest) {P : δ → Prop} (hP : ∀ d, P d → N.tree d → ∀ k ∈ N.sub d, P k) :
    ∀ (n : Nat) (req s : List δ) (ok : Bool) (s' : List δ), Sequential N n req s ok s' →
      (∀ d ∈ req, P d) → ∀ d ∈ s', d ∈ s ∨ Part N P d
  | 0, _, _, _, _, h, _ => h.elim
  | n + 1, req, s, ok, s', ⟨m, hm, h⟩, hd => by
    have hm' : ∀ d ∈ m, P d := fun d h => hd d (hm.sub d h)
    rcases h with ⟨ht, rfl⟩ | ⟨s1, ht, hrun⟩
    · exact trees_only ht hP (sequential_only hh hP n) hm'
    · intro d hds
      rcases hrun.only hh (P := P) (fun t ht => by
        rw [List.mem_singleton.1 ht]
        exact ⟨fun d h => .inl (hm' d h), by simp⟩) d hds with h | h
      · exact trees_only ht hP (sequential_only hh hP n) hm' d h
      · exact .inr h

/-! ## There is a successful execution -/

theorem Run.trans {l1 l2 l3 : List (Task δ)} {s1 s2 s3 : List δ} (h : Run N split l1 s1 l2 s2) :
    Run N split l2 s2 l3 s3 → Run N split l1 s1 l3 s3 := by
  induction h with
  | refl => exact id
  | step hs _ ih => exact fun h => .step hs (ih h)

theorem run_store {ok : Bool} {next : Option δ} (a b : List (Task δ)) : ∀ (todo s : List δ),
    Run N split (a ++ .store ok todo next :: b) s (a ++ .store ok [] next :: b) (s ++ todo)
  | [], s => by rw [List.append_nil]; exact .refl
  | d :: todo, s => by
    have := run_store (ok := ok) (next := next) a b todo (s ++ [d])
    rw [List.append_assoc] at this
    exact .step .stored this

theorem run_fetch (a b : List (Task δ)) {infos : List δ} (hn : infos.Nodup) (hg : ∀ d ∈ infos, N.given d) (s : List δ) :
    Run N split (a ++ .fetch infos none :: b) s (a ++ .finished true :: b) (s ++ infos) := by
  refine .step (.fetch (r := infos) ⟨hn, fun d hd _ => hg d hd, fun _ _ h => h⟩) ?_
  rw [show decide (infos.length = infos.length) = true from decide_eq_true rfl]
  exact (run_store a b infos s).trans (.step .right .refl)

theorem run_starts : ∀ (m : List δ) (a : List (Task δ)) (s : List δ), (∀ d ∈ m, N.given d) →
    ∃ s' oks, Run N split (a ++ m.map .start) s (a ++ List.map .finished oks) s' ∧ false ∉ oks
  | [], a, s, _ => ⟨s, [], .refl, by simp⟩
  | d :: m, a, s, hg => by
    have h1 : Run N split (a ++ .start d :: m.map .start) s (a ++ .finished true :: m.map .start) (s ++ [d]) :=
      .step .plain (run_fetch a _ (by simp) (by simpa using hg d (by simp)) s)
    obtain ⟨s', oks, h2, h3⟩ := run_starts m (a ++ [.finished true]) (s ++ [d]) fun x hx => hg x (by simp [hx])
    rw [List.append_assoc, List.append_assoc] at h2
    exact ⟨s', true :: oks, h1.trans h2, by simpa using h3⟩

theorem exists_missing (s req : List δ) : ∃ m, Missing s req m := by
  classical
  exact ⟨(req.filter (fun d => d ∉ s)).dedup, List.nodup_dedup _, fun d hd => (List.mem_filter.1 (List.mem_dedup.1 hd)).1,
    fun d hd hm => Classical.byContradiction fun hs =>
      hm (List.mem_dedup.2 (List.mem_filter.2 ⟨hd, by simpa using hs⟩))⟩

theorem exists_pre (N : Net δ) : ∀ m : List δ, ∃ pre : List δ, ∀ k, k ∈ pre ↔ ∃ d ∈ m, N.tree d ∧ k ∈ N.sub d
  | [] => ⟨[], by simp⟩
  | d :: m => by
    obtain ⟨pre, h⟩ := exists_pre N m
    by_cases ht : N.tree d
    · exact ⟨N.sub d ++ pre, by simp [h, ht]⟩
    · exact ⟨pre, by simp [h, ht]⟩

theorem parallel_possible (rank : δ → Nat) (hr : ∀ d, N.tree d → ∀ k ∈ N.sub d, rank k < rank d) {P : δ → Prop}
    (hP : ∀ d, P d → N.tree d → ∀ k ∈ N.sub d, P k) (hg : ∀ d, P d → N.given d) :
    ∀ (n : Nat) (req s done : List δ), (∀ d ∈ req, P d ∧ rank d < n) →
      ∃ s' done', Parallel N split (n + 1) req s done true s' done'
  | n, req, s, done, hq => by
    by_cases h0 : ∀ d ∈ req, d ∈ done
    · exact ⟨s, done, .inl ⟨h0, rfl, rfl, rfl⟩⟩
    · classical
      have htodo : ∀ d, d ∈ req.filter (fun d => d ∉ done) ↔ d ∈ req ∧ d ∉ done := fun d => by simp
      obtain ⟨m, hm⟩ := exists_missing s (req.filter fun d => d ∉ done)
      obtain ⟨pre, hpre⟩ := exists_pre N m
      have hm' : ∀ d ∈ m, P d ∧ rank d < n := fun d h => hq d ((htodo d).1 (hm.sub d h)).1
      match n, hq, hm' with
      | 0, hq, _ => exact absurd (fun d hd => absurd (hq d hd).2 (Nat.not_lt_zero _)) h0
      | n + 1, hq, hm' =>
        obtain ⟨s1, done1, h1⟩ := parallel_possible rank hr hP hg n pre s done fun k hk => by
          obtain ⟨d, h1, h2, h3⟩ := (hpre k).1 hk
          exact ⟨hP d (hm' d h1).1 h2 k h3, Nat.lt_of_lt_of_le (hr d h2 k h3) (Nat.le_of_lt_succ (hm' d h1).2)⟩
        obtain ⟨s2, oks, h2, h3⟩ := run_starts (N := N) (split := split) m [] s1 fun d hd => hg d (hm' d hd).1
        exact ⟨s2, _, .inr ⟨_, m, htodo, hm, .inr ⟨pre,
          ⟨fun d hd ht => ⟨_, .read, fun k hk => (hpre k).2 ⟨d, hd, ht, hk⟩⟩, fun k hk => (hpre k).1 hk⟩,
          .inr ⟨s1, done1, oks, h1, h2, .inr ⟨h3, rfl, rfl⟩⟩⟩⟩⟩

theorem trees_possible {rec : List δ → List δ → Bool → List δ → Prop} :
    ∀ (m s : List δ), (∀ d ∈ m, N.tree d → ∀ s, ∃ s', rec (N.sub d) s true s') → ∃ s', Trees N rec m s true s'
  | [], s, _ => ⟨s, .nil⟩
  | d :: m, s, h => by
    by_cases ht : N.tree d
    · obtain ⟨s1, h1⟩ := h d (by simp) ht s
      obtain ⟨s2, h2⟩ := trees_possible m s1 fun x hx => h x (by simp [hx])
      exact ⟨s2, .tree ht .read h1 h2⟩
    · obtain ⟨s2, h2⟩ := trees_possible m s fun x hx => h x (by simp [hx])
      exact ⟨s2, .blob ht h2⟩

theorem sequential_possible (rank : δ → Nat) (hr : ∀ d, N.tree d → ∀ k ∈ N.sub d, rank k < rank d) {P : δ → Prop}
    (hP : ∀ d, P d → N.tree d → ∀ k ∈ N.sub d, P k) (hg : ∀ d, P d → N.given d) :
    ∀ (n : Nat) (req s : List δ), (∀ d ∈ req, P d ∧ rank d < n) → ∃ s', Sequential N (n + 1) req s true s'
  | n, req, s, hq => by
    obtain ⟨m, hm⟩ := exists_missing s req
    have hm' : ∀ d ∈ m, P d ∧ rank d < n := fun d h => hq d (hm.sub d h)
    obtain ⟨s1, h1⟩ := trees_possible (N := N) (rec := Sequential N n) m s fun d hd ht s => by
      match n, hm' with
      | 0, hm' => exact absurd (hm' d hd).2 (Nat.not_lt_zero _)
      | n + 1, hm' =>
        exact sequential_possible rank hr hP hg n (N.sub d) s fun k hk =>
          ⟨hP d (hm' d hd).1 ht k hk, Nat.lt_of_lt_of_le (hr d ht k hk) (Nat.le_of_lt_succ (hm' d hd).2)⟩
    exact ⟨s1 ++ m, m, hm, .inr ⟨s1, h1, run_fetch [] [] hm.nodup (fun d hd => hg d (hm' d hd).1) s1⟩⟩

/-! ## Properties -/

/-- **C82.** However tasks are scheduled and whatever the other sides answer, the target is closed at every moment; and after
success it has everything below the requested objects. What is missing: trees that could not be read must not be delivered
afterwards (V54), and data must be what was asked for (V55). -/
theorem C82_parallel_partial (hN : N.OK kids) {n : Nat} {req s : List δ} {ok : Bool} {s' done' : List δ} (hc : Closed kids s)
    (h : Parallel N split n req s [] ok s' done') : Safe kids req s ok s' := by
  obtain ⟨h1, _, h3⟩ := parallel_sound hN n req s [] ok s' done' h (by simp)
  exact safe hc h1 h3

/-- **C82.** The same for the variant without parallelism. -/
theorem C82_sequential_partial (hN : N.OK kids) {n : Nat} {req s : List δ} {ok : Bool} {s' : List δ} (hc : Closed kids s)
    (h : Sequential N n req s ok s') : Safe kids req s ok s' := by
  obtain ⟨h1, h3⟩ := sequential_sound hN n req s ok s' h
  exact safe hc h1 h3

/-- **C82.** Nothing is stored but objects below the requested ones, and chunks of these, even if trees cannot be read. -/
theorem C82_only_partial (hh : N.honest) {n : Nat} {req s : List δ} {ok : Bool} {s' : List δ}
    (h : Sequential N n req s ok s' ∨ ∃ split done', Parallel N split n req s [] ok s' done') {d : δ} (hd : d ∈ s') :
    d ∈ s ∨ Below N.sub req d ∨ ∃ p, Below N.sub req p ∧ d ∈ N.chunks p := by
  rcases h with h | ⟨split, done', h⟩
  · exact sequential_only hh (P := Below N.sub req) (fun d h _ k hk => .step h hk) n req s ok s' h (fun _ h => .root h) d hd
  · exact parallel_only hh (P := Below N.sub req) (fun d h _ k hk => .step h hk) n req s [] ok s' done' h (fun _ h => .root h) d hd

/-- **C82.** If everything below the requested objects is delivered, success is possible from every state of the target, in both
variants. -/
theorem C82_possible (rank : δ → Nat) (hr : ∀ d, N.tree d → ∀ k ∈ N.sub d, rank k < rank d) {req : List δ}
    (hg : ∀ d, Below N.sub req d → N.given d) (s : List δ) :
    (∃ n s', Sequential N n req s true s') ∧ ∃ n s' done', Parallel N split n req s [] true s' done' := by
  have hn : ∀ l : List δ, ∃ n, ∀ d ∈ l, rank d < n := fun l => by
    induction l with
    | nil => exact ⟨0, by simp⟩
    | cons d l ih =>
      obtain ⟨n, h⟩ := ih
      exact ⟨max n (rank d + 1), by
        intro x hx
        rcases List.mem_cons.1 hx with rfl | hx
        · omega
        · have := h x hx
          omega⟩
  obtain ⟨n, hn⟩ := hn req
  have hP : ∀ d, Below N.sub req d → N.tree d → ∀ k ∈ N.sub d, Below N.sub req k := fun d h _ k hk => .step h hk
  obtain ⟨s1, h1⟩ := sequential_possible rank hr hP hg n req s fun d hd => ⟨.root hd, hn d hd⟩
  obtain ⟨s2, d2, h2⟩ := parallel_possible (split := split) rank hr hP hg n req s [] fun d hd => ⟨.root hd, hn d hd⟩
  exact ⟨⟨_, _, h1⟩, _, _, _, h2⟩

end Verif.Remote.Download
