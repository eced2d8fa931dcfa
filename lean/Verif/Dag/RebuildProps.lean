import Verif.Dag.Rebuild

/-!
# Properties of rebuilds: C105

A rebuild is a build in which some of the services refuse; its report is exactly about the actions for which the
result of the cache is missing or differs.
-/

namespace Verif.Dag.Rebuild

open Verif.Dig (ObjectType)
open Verif.Remote.Upload
open Verif.Dag.Executor hiding Ran

variable {Art Act δ : Type} [DecidableEq Art] [DecidableEq Act] [DecidableEq δ]
variable {kids : δ → List δ} {W : World Art δ} {P : Plan Art Act δ} {g : Graph Art Act} {noCache : Act → Bool}
  {S : Act → Service δ → Prop} {runs : Act → δ → Reply δ → Prop} {K : Act → δ → Option (Hit δ) → Prop} {s₀ : List δ}

set_option linter.unusedSectionVars false

/-! ## Comparing -/

theorem differing_mem {c : Act} {m : Named δ} : ∀ {l : Named δ} {d : Diff Act δ}, d ∈ (differing c l m).1 →
    d.act = c ∧ (d.path, d.rebuilt) ∈ l ∧ m.lookup d.path = some d.cached ∧ d.rebuilt ≠ d.cached
  | [], d, h => nomatch h
  | (p, i) :: t, d, h => by
    unfold differing at h
    cases hm : m.lookup p with
    | none => rw [hm] at h; exact nomatch h
    | some j =>
      rw [hm] at h
      simp only at h
      by_cases e : i ≠ j
      · rw [if_pos e] at h
        rcases List.mem_cons.1 h with rfl | h
        · exact ⟨rfl, by simp, hm, e⟩
        · obtain ⟨h1, h2, h3⟩ := differing_mem h
          exact ⟨h1, .tail _ h2, h3⟩
      · rw [if_neg e] at h
        obtain ⟨h1, h2, h3⟩ := differing_mem h
        exact ⟨h1, .tail _ h2, h3⟩

theorem differing_all {c : Act} {m : Named δ} : ∀ {l : Named δ}, (differing c l m).2 = true → ∀ o ∈ l,
    ∃ j, m.lookup o.1 = some j ∧ (o.2 ≠ j → ⟨c, o.1, o.2, j⟩ ∈ (differing c l m).1)
  | [], h, o, ho => nomatch ho
  | (p, i) :: t, h, o, ho => by
    unfold differing at h ⊢
    cases hm : m.lookup p with
    | none => rw [hm] at h; exact nomatch h
    | some j =>
      rw [hm] at h
      simp only at h ⊢
      by_cases e : i ≠ j
      · rw [if_pos e] at h ⊢
        rcases List.mem_cons.1 ho with rfl | ho
        · exact ⟨j, hm, fun _ => .head _⟩
        · obtain ⟨j', h1, h2⟩ := differing_all h o ho
          exact ⟨j', h1, fun e => .tail _ (h2 e)⟩
      · rw [if_neg e] at h ⊢
        rcases List.mem_cons.1 ho with rfl | ho
        · exact ⟨j, hm, fun h' => absurd h' e⟩
        · exact differing_all h o ho

theorem differing_ok {c : Act} {m : Named δ} : ∀ {l : Named δ}, (∀ o ∈ l, m.lookup o.1 ≠ none) →
    (differing c l m).2 = true
  | [], h => rfl
  | (p, i) :: t, h => by
    unfold differing
    cases hm : m.lookup p with
    | none => exact absurd hm (h (p, i) (.head _))
    | some j =>
      simp only
      have := differing_ok (c := c) (l := t) fun o ho => h o (.tail _ ho)
      split
      · exact this
      · exact this

/-- What a report is part of. -/
def Part (R F : Report Act δ) : Prop := R.flaky ⊆ F.flaky ∧ R.misses ⊆ F.misses

theorem detect_mono (c : Act) (q : Option (Reply δ)) (k : Option (Hit δ)) (R : Report Act δ) :
    Part R (detect P noCache c q k R).2 := by
  have base : ∀ (f : List (Diff Act δ)) (m : List Act) (a b d e : Nat), Part R ⟨R.flaky ++ f, R.misses ++ m, a, b, d, e⟩ :=
    fun f m _ _ _ _ => ⟨List.subset_append_left _ _, List.subset_append_left _ _⟩
  unfold detect
  split
  · split
    · split
      · simpa using base _ [] _ _ _ _
      · simpa using base _ [] _ _ _ _
    · simpa using base [] [] (R.compared + 1) R.missing R.flakies R.tainted
  · simpa using base [] [c] _ _ _ _

theorem detect_fst (c : Act) (q : Option (Reply δ)) (k : Option (Hit δ)) (R R' : Report Act δ) :
    (detect P noCache c q k R).1 = (detect P noCache c q k R').1 := by
  unfold detect
  split
  · split
    · split <;> rfl
    · rfl
  · rfl

/-- A comparison without an error: the result is confirmed, or something is reported. -/
theorem detect_true {c : Act} {q : Reply δ} {k : Option (Hit δ)} {R : Report Act δ}
    (h : (detect P noCache c (some q) k R).1 = true) :
    (∃ b, k = some (true, b) ∧ SameOuts q b) ∨ ¬ (detect P noCache c (some q) k R).2.Silent c := by
  unfold detect at h ⊢
  match k, h with
  | none, h => exact .inr fun hs => hs.1 (by simp)
  | some (false, b), h => exact .inr fun hs => hs.1 (by simp)
  | some (true, b), h =>
    simp only at h ⊢
    cases hq : q.outs with
    | none => rw [hq] at h; exact nomatch h
    | some l =>
      cases hb : b.outs with
      | none => rw [hq, hb] at h; exact nomatch h
      | some m =>
        rw [hq, hb] at h
        simp only at h ⊢
        obtain ⟨ds, ok, e⟩ : ∃ ds ok, differing c l m = (ds, ok) := ⟨_, _, rfl⟩
        rw [e] at h ⊢
        cases ok with
        | false => exact nomatch h
        | true =>
          have hall := differing_all (c := c) (l := l) (m := m) (by rw [e])
          rw [e] at hall
          by_cases hd : ds = []
          · refine .inl ⟨b, rfl, l, m, hq, hb, fun o ho => ?_⟩
            obtain ⟨j, h1, h2⟩ := hall o ho
            by_cases ej : o.2 = j
            · rw [h1, ej]
            · have := h2 ej
              rw [hd] at this
              exact nomatch this
          · refine .inr fun hs => ?_
            obtain ⟨d, hdm⟩ := List.exists_mem_of_ne_nil _ hd
            have := differing_mem (c := c) (l := l) (m := m) (d := d) (by rw [e]; exact hdm)
            exact hs.2 d (by simp [hdm]) this.1

/-! ## A rebuild as a build -/

open Classical in
/-- The service as a rebuild uses it: results that are not accepted are no results. -/
noncomputable def narrow (P : Plan Art Act δ) (noCache : Act → Bool) (c : Act) (F : Report Act δ) (V : Service δ)
    (k : δ → Option (Hit δ)) : Service δ where
  exec r s :=
    if (detect P noCache c (run V r s).1 (k r) .empty).1 = true ∧
      ∃ q, (run V r s).1 = some q ∧ (F.Silent c → ∃ b, k r = some (true, b) ∧ SameOuts q b)
    then V.exec r s else (none, (run V r s).2)
  back := V.back

theorem run_fst {V : Service δ} {r : δ} {s : List δ} {q : Reply δ} (h : (run V r s).1 = some q) :
    (V.exec r s).1 = some q := by
  unfold run at h
  obtain ⟨a, s', e⟩ : ∃ a s', V.exec r s = (a, s') := ⟨_, _, rfl⟩
  rw [e] at h ⊢
  cases a with
  | none => exact nomatch h
  | some q' =>
    cases hb : V.back with
    | none => rw [hb] at h; exact h
    | some b =>
      rw [hb] at h
      simp only at h
      cases ho : q'.outs with
      | none => rw [ho] at h; exact nomatch h
      | some l => rw [ho] at h; exact h

theorem narrow_honest {c : Act} {F : Report Act δ} {V : Service δ} {k : δ → Option (Hit δ)}
    (hV : Honest kids (runs c) V) (hK : ∀ r, K c r (k r)) :
    Honest kids (fun r q => runs c r q ∧ (F.Silent c → Confirmed K c r q)) (narrow P noCache c F V k) := by
  refine ⟨fun r s hc hr => ?_, fun r s q hc hr h => ?_, fun r s q l hc hr h hb hl => ?_, hV.back⟩
  · simp only [narrow]
    split
    · exact hV.grows r s hc hr
    · exact (run_spec hV hc hr).1
  · simp only [narrow] at h
    split at h
    · rename_i hg
      obtain ⟨-, q', h1, h2⟩ := hg
      have := run_fst h1
      rw [h] at this
      injection this with this
      subst this
      refine ⟨hV.runs r s q hc hr h, fun hs => ?_⟩
      obtain ⟨b, e, hb⟩ := h2 hs
      exact ⟨b, e ▸ hK r, hb⟩
    · exact nomatch h
  · simp only [narrow] at h ⊢
    split at h
    · rename_i hg
      rw [if_pos hg]
      exact hV.there r s q l hc hr h hb hl
    · exact nomatch h

/-- Processing an action in a rebuild is processing it with the services as they are used. -/
theorem rebuild_step {c : Act} {F : Report Act δ} {V : Service δ} {k : δ → Option (Hit δ)} {n : Nat} {x x' : Ex Art δ}
    {R R' : Report Act δ} {ok : Bool} (h : rebuildAct W P noCache V k n c x R = (.fine ok x', R')) (hF : Part R' F) :
    processAct W P (narrow P noCache c F V k) n c x = .fine ok x' ∧ Part R R' := by
  unfold rebuildAct at h
  unfold processAct
  have refl : Part R R := ⟨fun _ h => h, fun _ h => h⟩
  cases hi : inputsOf x.vals (P.inputs c) with
  | none => rw [hi] at h; injection h with h _; exact nomatch h
  | some ins =>
    rw [hi] at h
    simp only at h ⊢
    cases hw : P.work c with
    | overlay dis =>
      rw [hw] at h
      simp only at h ⊢
      split at h
      · injection h with h h'
        subst h'
        rename_i s d e1 e2
        rw [e1, e2]
        exact ⟨h, refl⟩
      · rename_i ok₁ s₁ e1 hne
        injection h with h h'
        subst h'
        refine ⟨?_, detect_mono _ _ _ _⟩
        rw [← h, e1]
        cases hd : (W.overlay dis (strip ins)).1 with
        | none => cases ok₁ <;> rfl
        | some d =>
          cases ok₁ with
          | true => exact (hne d hd rfl).elim
          | false => rfl
    | tree =>
      rw [hw] at h
      simp only at h ⊢
      split at h
      · injection h with h _; exact nomatch h
      · rename_i e
        injection h with h h'
        subst h'
        rw [e]
        exact ⟨h, detect_mono _ _ _ _⟩
      · rename_i e
        injection h with h h'
        subst h'
        rw [e]
        exact ⟨h, refl⟩
    | command =>
      rw [hw] at h
      simp only at h ⊢
      cases hr : createRoot W n ins x.store with
      | none => rw [hr] at h; injection h with h _; exact nomatch h
      | some o =>
        rw [hr] at h
        obtain ⟨o, s⟩ := o
        cases o with
        | none =>
          injection h with h h'
          subst h'
          exact ⟨h, detect_mono _ _ _ _⟩
        | some r =>
          simp only at h ⊢
          obtain ⟨ok', D, hD⟩ : ∃ ok' D, detect P noCache c (run V r s).1 (k r) R = (ok', D) := ⟨_, _, rfl⟩
          have hm : Part R D := by
            have := detect_mono (P := P) (noCache := noCache) c (run V r s).1 (k r) R
            rw [hD] at this
            exact this
          have h1 : (detect P noCache c (run V r s).1 (k r) .empty).1 = ok' := by
            rw [detect_fst c _ _ .empty R, hD]
          rw [hD] at h
          have bad : ¬ ((detect P noCache c (run V r s).1 (k r) .empty).1 = true ∧
              ∃ q, (run V r s).1 = some q ∧ (F.Silent c → ∃ b, k r = some (true, b) ∧ SameOuts q b)) →
              run (narrow P noCache c F V k) r s = (none, (run V r s).2) := by
            intro hb
            have : (narrow P noCache c F V k).exec r s = (none, (run V r s).2) := if_neg hb
            rw [run, this]
          cases ok' with
          | false =>
            injection h with h h'
            subst h'
            rw [bad (by rw [h1]; exact fun e => nomatch e.1)]
            exact ⟨h, hm⟩
          | true =>
            simp only at h
            cases hq : (run V r s).1 with
            | none =>
              rw [hq] at h
              injection h with h h'
              subst h'
              rw [bad (by rw [hq]; rintro ⟨-, q, e, -⟩; exact nomatch e)]
              exact ⟨h, hm⟩
            | some q =>
              rw [hq] at h
              injection h with h h'
              subst h'
              have good : (detect P noCache c (run V r s).1 (k r) .empty).1 = true ∧
                  ∃ q, (run V r s).1 = some q ∧ (F.Silent c → ∃ b, k r = some (true, b) ∧ SameOuts q b) := by
                refine ⟨h1, q, hq, fun hs => ?_⟩
                rcases detect_true (P := P) (noCache := noCache) (c := c) (q := q) (k := k r) (R := R)
                  (by rw [← hq, hD]) with hb | hb
                · exact hb
                · refine absurd ?_ hb
                  rw [← hq, hD]
                  exact ⟨fun hc => hs.1 (hF.2 hc), fun d hd => hs.2 d (hF.1 hd)⟩
              have e : (narrow P noCache c F V k).exec r s = V.exec r s := if_pos good
              have : run (narrow P noCache c F V k) r s = (some q, (run V r s).2) := by
                rw [← hq]
                unfold run
                rw [e]
                rfl
              rw [this]
              exact ⟨h, hm⟩

/-- The services as a rebuild with the final report `F` uses them. -/
def Narrowed (P : Plan Art Act δ) (noCache : Act → Bool) (S : Act → Service δ → Prop)
    (K : Act → δ → Option (Hit δ) → Prop) (F : Report Act δ) (c : Act) (V' : Service δ) : Prop :=
  ∃ V k, S c V ∧ (∀ r, K c r (k r)) ∧ V' = narrow P noCache c F V k

theorem as_build {l : List (Event Art Act)} {x : Ex Art δ} {R F : Report Act δ}
    (h : Ran kids W P noCache S K s₀ l x R) (hF : Part R F) :
    Executor.Ran kids W P (Narrowed P noCache S K F) s₀ l x := by
  induction h with
  | start => exact .start
  | others _ hg ih => exact .others (ih hF) hg
  | started n _ ih => exact .started n (ih hF)
  | available a _ ih => exact .available a (ih hF)
  | art n _ hp ih => exact .art n (ih hF) hp
  | act n V k _ hS hK hp ih =>
    obtain ⟨h1, h2⟩ := rebuild_step hp hF
    exact .act n _ (ih ⟨fun _ hd => hF.1 (h2.1 hd), fun _ hd => hF.2 (h2.2 hd)⟩) ⟨V, k, hS, hK, rfl⟩ h1

theorem narrowed_honest {F : Report Act δ} (hS : ∀ c V, S c V → Honest kids (runs c) V ∧ Reliable V) :
    ∀ c V, Narrowed P noCache S K F c V →
      Honest kids (fun r q => runs c r q ∧ (F.Silent c → Confirmed K c r q)) V ∧ Reliable V := by
  rintro c _ ⟨V, k, h1, h2, rfl⟩
  exact ⟨narrow_honest (hS c V h1).1 h2, (hS c V h1).2⟩

/-! ## C105 -/

section
variable {ts : List Art} {s : State Art Act} {x : Ex Art δ} {R : Report Act δ}

/-- A rebuild that ended without a failure is a build: everything needed is available and given by the results of
running the actions again; and an action about which nothing is reported has a result in the cache, for the same
action, with the same objects. -/
theorem C105_rebuild (hg : g.OK) (ha : g.Acyclic) (hP : Fits g P) (hW : W.OK kids)
    (hS : ∀ c V, S c V → Honest kids (runs c) V ∧ Reliable V) (hc : Closed kids s₀) (h : Reachable g ts s) (hq : s.quiet)
    (hf : s.core.failed = false) (hx : Ran kids W P noCache S K s₀ s.core.log x R) :
    (∀ a, Cone g ts (.art a) → ∃ v, x.vals a = some v ∧ ∀ d, Below kids [v.digest] d → d ∈ x.store) ∧
    (∀ a, Cone g ts (.art a) → g.builder a = none → x.vals a = leaf W P a) ∧
    ∀ c, Cone g ts (.act c) →
      Explained W P (fun c r q => runs c r q ∧ (R.Silent c → Confirmed K c r q)) x.vals c :=
  C86_build hg ha hP hW (narrowed_honest hS) hc h hq hf (as_build hx ⟨fun _ h => h, fun _ h => h⟩)

end

/-! ## Agreement with the cache -/

theorem strip_alike : ∀ {ins ins' : List (Str × Info δ)}, ins.map Prod.fst = ins'.map Prod.fst →
    List.Forall₂ (fun i j : Str × Info δ => Alike (some i.2) (some j.2)) ins ins' → strip ins = strip ins'
  | [], [], _, _ => rfl
  | i :: t, j :: t', e, .cons h1 h2 => by
    rw [List.map_cons, List.map_cons] at e
    injection e with e1 e2
    have := strip_alike e2 h2
    unfold strip at this ⊢
    rw [List.map_cons, List.map_cons, this, e1, h1.1, h1.2]

theorem directory_strip {W W' : World Art δ} (hroot : W.root = W'.root) {ins ins' : List (Str × Info δ)}
    (h : strip ins = strip ins') : directory W ins = directory W' ins' := by
  have hroot' : W.root (strip ins) = W'.root (strip ins') := by rw [h, hroot]
  match ins, ins', h, hroot' with
  | [], [], _, e => exact e
  | [], _ :: _, h, _ => exact nomatch h
  | [_], [], h, _ => exact nomatch h
  | [(p, i)], [(p', j)], h, e =>
    simp only [strip, List.map_cons, List.map_nil] at h
    injection h with h _
    injection h with h1 h
    injection h with h2 h3
    unfold directory
    subst h1
    simp only [h2, h3]
    split
    · rfl
    · exact e
  | [_], _ :: _ :: _, h, _ =>
    simp only [strip, List.map_cons, List.map_nil] at h
    injection h with _ h
    exact nomatch h
  | _ :: _ :: _, [], h, _ => exact nomatch h
  | _ :: _ :: _, [_], h, _ =>
    simp only [strip, List.map_cons, List.map_nil] at h
    injection h with _ h
    exact nomatch h
  | _ :: _ :: _, _ :: _ :: _, _, e => exact e

theorem inputs_rel {rel : Option (Info δ) → Option (Info δ) → Prop} {v v' : Art → Option (Info δ)} :
    ∀ {l : List (Str × Art)} {ins ins' : List (Str × Info δ)}, (∀ i ∈ l, rel (v i.2) (v' i.2)) →
    ins.map (fun i => some i.2) = l.map (fun i => v i.2) → ins'.map (fun i => some i.2) = l.map (fun i => v' i.2) →
    List.Forall₂ (fun i j : Str × Info δ => rel (some i.2) (some j.2)) ins ins'
  | [], [], [], _, _, _ => .nil
  | [], _ :: _, _, _, e, _ => nomatch e
  | [], [], _ :: _, _, _, e => nomatch e
  | _ :: _, [], _, _, e, _ => nomatch e
  | _ :: _, _ :: _, [], _, _, e => nomatch e
  | a :: t, i :: u, j :: u', h, e, e' => by
    rw [List.map_cons, List.map_cons] at e e'
    injection e with e1 e2
    injection e' with e3 e4
    refine .cons ?_ (inputs_rel (fun i hi => h i (.tail _ hi)) e2 e4)
    rw [e1, e3]
    exact h a (.head _)

/-- One action: if the inputs agree and the result is confirmed, the outputs agree with those of the cached result. -/
theorem explained_alike {W' : World Art δ} (hroot : W.root = W'.root)
    (hover : ∀ dis ins, (W.overlay dis ins).1 = (W'.overlay dis ins).1)
    (hK : ∀ c r b b', K c r (some (true, b)) → K c r (some (true, b')) → b = b')
    {v v' : Art → Option (Info δ)} {c : Act} {cond : Prop} (hcond : cond)
    (h : Explained W P (fun c r q => runs c r q ∧ (cond → Confirmed K c r q)) v c)
    (h' : Explained W' P (fun c r q => K c r (some (true, q))) v' c)
    (hin : ∀ i ∈ P.inputs c, Alike (v i.2) (v' i.2)) :
    (∀ o ∈ P.files c ++ P.dirs c, Alike (v o.2) (v' o.2)) ∧
    ((P.mayFail c = false ∧ ∀ i ∈ P.inputs c, v i.2 = v' i.2) → ∀ o ∈ P.files c ++ P.dirs c, v o.2 = v' o.2) := by
  obtain ⟨ins, i1, i2, i3⟩ := h
  obtain ⟨ins', j1, j2, j3⟩ := h'
  have hstrip : strip ins = strip ins' := strip_alike (i1.trans j1.symm) (inputs_rel hin i2 j2)
  have hdir := directory_strip hroot hstrip
  have hfail : (∀ i ∈ P.inputs c, v i.2 = v' i.2) →
      ((∃ i ∈ ins, i.2.failed = true) ↔ ∃ i ∈ ins', i.2.failed = true) := by
    intro he
    have e : ins.map (fun i => some i.2) = ins'.map (fun i => some i.2) := by
      rw [i2, j2]; exact List.map_congr_left he
    have mem : ∀ {l l' : List (Str × Info δ)}, l.map (fun i => some i.2) = l'.map (fun i => some i.2) →
        (∃ i ∈ l, i.2.failed = true) → ∃ i ∈ l', i.2.failed = true := by
      rintro l l' e ⟨i, hi, hf⟩
      have : some i.2 ∈ l'.map (fun i => some i.2) := by rw [← e]; exact List.mem_map.2 ⟨i, hi, rfl⟩
      obtain ⟨j, hj, ej⟩ := List.mem_map.1 this
      injection ej with ej
      exact ⟨j, hj, by rw [ej]; exact hf⟩
    exact ⟨mem e, mem e.symm⟩
  have trees : ∀ {d d' : δ}, d = d' →
      (∀ o ∈ P.files c ++ P.dirs c, v o.2 = some ⟨d, .tree, decide (∃ i ∈ ins, i.2.failed = true)⟩) →
      (∀ o ∈ P.files c ++ P.dirs c, v' o.2 = some ⟨d', .tree, decide (∃ i ∈ ins', i.2.failed = true)⟩) →
      (∀ o ∈ P.files c ++ P.dirs c, Alike (v o.2) (v' o.2)) ∧
      ((P.mayFail c = false ∧ ∀ i ∈ P.inputs c, v i.2 = v' i.2) →
        ∀ o ∈ P.files c ++ P.dirs c, v o.2 = v' o.2) := by
    rintro d _ rfl h1 h2
    refine ⟨fun o ho => ?_, fun he o ho => ?_⟩
    · rw [h1 o ho, h2 o ho]; exact ⟨rfl, rfl⟩
    · rw [h1 o ho, h2 o ho, decide_eq_decide.2 (hfail he.2)]
  cases hw : P.work c with
  | tree =>
    rw [hw] at i3 j3
    obtain ⟨d, d1, d2⟩ := i3
    obtain ⟨d', d3, d4⟩ := j3
    rw [hdir, d3] at d1
    injection d1 with d1
    exact trees d1.symm d2 d4
  | overlay dis =>
    rw [hw] at i3 j3
    obtain ⟨d, d1, d2⟩ := i3
    obtain ⟨d', d3, d4⟩ := j3
    rw [hover, hstrip, d3] at d1
    injection d1 with d1
    exact trees d1.symm d2 d4
  | command =>
    rw [hw] at i3 j3
    obtain ⟨r, q, outs, r1, ⟨-, r2⟩, r3, r4, r5, r6⟩ := i3
    obtain ⟨r', q', outs', t1, t2, t3, t4, t5, t6⟩ := j3
    rw [hdir, t1] at r1
    injection r1 with r1
    subst r1
    obtain ⟨b, b1, l, m, b2, b3, b4⟩ := r2 hcond
    have := hK _ _ _ _ b1 t2
    subst this
    rw [r4] at b2
    injection b2 with b2
    subst b2
    rw [t4] at b3
    injection b3 with b3
    subst b3
    have key : ∀ o ∈ P.files c ++ P.dirs c, ∃ d t,
        v o.2 = some ⟨d, t, decide ((∃ i ∈ ins, i.2.failed = true) ∨ q.exit ≠ 0)⟩ ∧
        v' o.2 = some ⟨d, t, decide ((∃ i ∈ ins', i.2.failed = true) ∨ b.exit ≠ 0)⟩ := by
      intro o ho
      have one : ∀ {d d' : δ} {t t' : ObjectType}, outs.lookup o.1 = some (d, t) → outs'.lookup o.1 = some (d', t') →
          d = d' ∧ t = t' := by
        intro d d' t t' h1 h2
        have := b4 _ (lookup_mem h1)
        rw [h2] at this
        injection this with this
        injection this with e1 e2
        exact ⟨e1.symm, e2.symm⟩
      rcases List.mem_append.1 ho with ho | ho
      · obtain ⟨d, t, a1, -, a3⟩ := r5 o ho
        obtain ⟨d', t', c1, -, c3⟩ := t5 o ho
        obtain ⟨e1, e2⟩ := one a1 c1
        subst e1 e2
        exact ⟨d, t, a3, c3⟩
      · obtain ⟨d, t, a1, -, a3⟩ := r6 o ho
        obtain ⟨d', t', c1, -, c3⟩ := t6 o ho
        obtain ⟨e1, e2⟩ := one a1 c1
        subst e1 e2
        exact ⟨d, t, a3, c3⟩
    refine ⟨fun o ho => ?_, fun he o ho => ?_⟩
    · obtain ⟨d, t, h1, h2⟩ := key o ho
      rw [h1, h2]
      exact ⟨rfl, rfl⟩
    · obtain ⟨d, t, h1, h2⟩ := key o ho
      have x1 : q.exit = 0 := r3.resolve_right (by rw [he.1]; exact fun e => nomatch e)
      have x2 : b.exit = 0 := t3.resolve_right (by rw [he.1]; exact fun e => nomatch e)
      rw [h1, h2, x1, x2, decide_eq_decide.2 (or_congr_left (hfail he.2))]

theorem cone_trans {ts : List Art} {a : Art} {n : Node Art Act} (ha : Cone g ts (.art a)) (h : Cone g [a] n) :
    Cone g ts n := by
  induction h with
  | target h => rw [List.mem_singleton] at h; subst h; exact ha
  | builder _ hb ih => exact .builder ih hb
  | dep _ hd ih => exact .dep ih hd

theorem cone_sub {a b : Art} {n : Node Art Act} (hb : Cone g [a] (.art b)) (h : Cone g [b] n) : Cone g [a] n :=
  cone_trans hb h

/-- A rebuild finds what is not reproducible. Take a rebuild and a build in which all results are from the cache, both
ended without a failure. If nothing is reported about the actions an artifact is made by, directly or indirectly, then
its object is the same in both; and if none of these actions may fail, so is the mark. -/
theorem C105_found {W' : World Art δ} {S' : Act → Service δ → Prop} {s₀' : List δ} {ts ts' : List Art}
    {s s' : State Art Act} {x x' : Ex Art δ} {R : Report Act δ} (hg : g.OK) (ha : g.Acyclic) (hP : Fits g P)
    (hW : W.OK kids) (hW' : W'.OK kids) (hS : ∀ c V, S c V → Honest kids (runs c) V ∧ Reliable V)
    (hS' : ∀ c V, S' c V → Honest kids (fun r q => K c r (some (true, q))) V ∧ Reliable V)
    (hc : Closed kids s₀) (hc' : Closed kids s₀') (hroot : W.root = W'.root)
    (hover : ∀ dis ins, (W.overlay dis ins).1 = (W'.overlay dis ins).1) (hblob : W.blob = W'.blob)
    (hK : ∀ c r b b', K c r (some (true, b)) → K c r (some (true, b')) → b = b')
    (h : Reachable g ts s) (hq : s.quiet) (hf : s.core.failed = false) (hx : Ran kids W P noCache S K s₀ s.core.log x R)
    (h' : Reachable g ts' s') (hq' : s'.quiet) (hf' : s'.core.failed = false)
    (hx' : Executor.Ran kids W' P S' s₀' s'.core.log x') {a : Art} (ha1 : Cone g ts (.art a))
    (ha2 : Cone g ts' (.art a)) (hsil : ∀ c, Cone g [a] (.act c) → R.Silent c) :
    Alike (x.vals a) (x'.vals a) ∧
    ((∀ c, Cone g [a] (.act c) → P.mayFail c = false) → x.vals a = x'.vals a) := by
  obtain ⟨av, l1, e1⟩ := C105_rebuild hg ha hP hW hS hc h hq hf hx
  obtain ⟨-, l2, e2⟩ := C86_build (runs := fun c r q => K c r (some (true, q))) hg ha hP hW' hS' hc' h' hq' hf' hx'
  have leaves : ∀ b, g.builder b = none → Cone g [a] (.art b) → Alike (x.vals b) (x'.vals b) ∧ x.vals b = x'.vals b := by
    intro b hb cb
    have e : x.vals b = x'.vals b := by
      rw [l1 b (cone_trans ha1 cb) hb, l2 b (cone_trans ha2 cb) hb]
      unfold leaf
      rw [hblob]
    obtain ⟨v, hv, -⟩ := av b (cone_trans ha1 cb)
    refine ⟨?_, e⟩
    rw [← e, hv]
    exact ⟨rfl, rfl⟩
  have key : ∀ c, Cone g [a] (.act c) → ∀ b ∈ g.outs c, Alike (x.vals b) (x'.vals b) ∧
      ((∀ c, Cone g [a] (.act c) → P.mayFail c = false) → x.vals b = x'.vals b) := by
    intro c
    induction c using ha.induction with
    | h c ih =>
      intro cc b hb
      rw [← hP.outs] at hb
      obtain ⟨o, ho, rfl⟩ := List.mem_map.1 hb
      have hins : ∀ i ∈ P.inputs c, Alike (x.vals i.2) (x'.vals i.2) ∧
          ((∀ c, Cone g [a] (.act c) → P.mayFail c = false) → x.vals i.2 = x'.vals i.2) := by
        intro i hi
        have hd : i.2 ∈ g.deps c := by rw [← hP.deps]; exact List.mem_map.2 ⟨i, hi, rfl⟩
        cases hbd : g.builder i.2 with
        | none => exact ⟨(leaves _ hbd (.dep cc hd)).1, fun _ => (leaves _ hbd (.dep cc hd)).2⟩
        | some c' => exact ih c' ⟨i.2, hd, hbd⟩ (.builder (.dep cc hd) hbd) _ ((hg.builder _ _).1 hbd)
      obtain ⟨k1, k2⟩ := explained_alike (cond := R.Silent c) hroot hover hK (hsil c cc)
        (e1 c (cone_trans ha1 cc)) (e2 c (cone_trans ha2 cc)) (fun i hi => (hins i hi).1)
      exact ⟨k1 o ho, fun hm => k2 ⟨hm c cc, fun i hi => (hins i hi).2 hm⟩ o ho⟩
  cases hb : g.builder a with
  | none =>
    have := leaves a hb (.target (by simp))
    exact ⟨this.1, fun _ => this.2⟩
  | some c => exact key c (.builder (.target (by simp)) hb) a ((hg.builder a c).1 hb)

/-! ## What is reported -/

/-- What processing an action adds to the report. -/
theorem rebuild_report {c : Act} {V : Service δ} {k : δ → Option (Hit δ)} {n : Nat} {x x' : Ex Art δ}
    {R R' : Report Act δ} {ok : Bool} (h : rebuildAct W P noCache V k n c x R = (.fine ok x', R')) :
    (R' = R ∧ P.work c ≠ .command) ∨ (ok = false ∧ R' = (detect P noCache c none none R).2) ∨
    ∃ ins r s, P.work c = .command ∧ inputsOf x.vals (P.inputs c) = some ins ∧
      createRoot W n ins x.store = some (some r, s) ∧ R' = (detect P noCache c (run V r s).1 (k r) R).2 ∧
      (ok = true → (detect P noCache c (run V r s).1 (k r) R).1 = true ∧ (run V r s).1 ≠ none) := by
  unfold rebuildAct at h
  cases hi : inputsOf x.vals (P.inputs c) with
  | none => rw [hi] at h; injection h with h _; exact nomatch h
  | some ins =>
    rw [hi] at h
    simp only at h
    cases hw : P.work c with
    | overlay dis =>
      rw [hw] at h
      simp only at h
      split at h
      · injection h with h h'
        exact .inl ⟨h'.symm, fun e => nomatch e⟩
      · injection h with h h'
        injection h with h _
        exact .inr (.inl ⟨h.symm, h'.symm⟩)
    | tree =>
      rw [hw] at h
      simp only at h
      split at h
      · injection h with h _; exact nomatch h
      · injection h with h h'
        injection h with h _
        exact .inr (.inl ⟨h.symm, h'.symm⟩)
      · injection h with h h'
        exact .inl ⟨h'.symm, fun e => nomatch e⟩
    | command =>
      rw [hw] at h
      simp only at h
      cases hr : createRoot W n ins x.store with
      | none => rw [hr] at h; injection h with h _; exact nomatch h
      | some o =>
        rw [hr] at h
        obtain ⟨o, s⟩ := o
        cases o with
        | none =>
          injection h with h h'
          injection h with h _
          exact .inr (.inl ⟨h.symm, h'.symm⟩)
        | some r =>
          simp only at h
          refine .inr (.inr ⟨ins, r, s, rfl, rfl, hr, ?_⟩)
          obtain ⟨ok', D, hD⟩ : ∃ ok' D, detect P noCache c (run V r s).1 (k r) R = (ok', D) := ⟨_, _, rfl⟩
          rw [hD] at h ⊢
          cases ok' with
          | false =>
            injection h with h h'
            injection h with h _
            subst h
            exact ⟨h'.symm, fun e => nomatch e⟩
          | true =>
            simp only at h
            cases hq : (run V r s).1 with
            | none =>
              rw [hq] at h
              injection h with h h'
              injection h with h _
              subst h
              exact ⟨h'.symm, fun e => nomatch e⟩
            | some q =>
              rw [hq] at h
              injection h with h h'
              exact ⟨h'.symm, fun _ => ⟨rfl, fun e => nomatch e⟩⟩

theorem detect_flaky {c : Act} {q : Option (Reply δ)} {k : Option (Hit δ)} {R : Report Act δ} {d : Diff Act δ}
    (h : d ∈ (detect P noCache c q k R).2.flaky) :
    d ∈ R.flaky ∨ (d.act = c ∧ ∃ a b l m, q = some a ∧ k = some (true, b) ∧ a.outs = some l ∧ b.outs = some m ∧
      (d.path, d.rebuilt) ∈ l ∧ m.lookup d.path = some d.cached ∧ d.rebuilt ≠ d.cached) := by
  unfold detect at h
  split at h
  · rename_i a b
    split at h
    · rename_i l m e1 e2
      have hd : d ∈ R.flaky ++ (differing c l m).1 := by
        split at h
        · rename_i e; rw [e]; exact h
        · rename_i e; rw [e]; exact h
      rcases List.mem_append.1 hd with hd | hd
      · exact .inl hd
      · obtain ⟨h1, h2⟩ := differing_mem hd
        exact .inr ⟨h1, a, b, l, m, rfl, rfl, e1, e2, h2⟩
    · exact .inl h
  · exact .inl h

theorem detect_misses {c c' : Act} {q : Option (Reply δ)} {k : Option (Hit δ)} {R : Report Act δ}
    (h : c' ∈ (detect P noCache c q k R).2.misses) :
    c' ∈ R.misses ∨ (c' = c ∧ (q = none ∨ ∀ b, k ≠ some (true, b))) := by
  unfold detect at h
  split at h
  · split at h
    · split at h <;> exact .inl h
    · exact .inl h
  · rename_i hne
    rcases List.mem_append.1 h with h | h
    · exact .inl h
    · rw [List.mem_singleton] at h
      refine .inr ⟨h, ?_⟩
      cases q with
      | none => exact .inl rfl
      | some a => exact .inr fun b e => hne a b rfl e

section
variable {ts : List Art} {s : State Art Act} {x : Ex Art δ} {R : Report Act δ}

/-- What is reported is true, also if the rebuild fails: an output reported to differ is one of a result of running the
action again, and the cache has another object for it in its result for the same action; an action reported to be
missing in the cache was processed, and if that was successful, it gave a result and the cache had none. -/
theorem C105_sound (hg : g.OK) (hP : Fits g P) (hW : W.OK kids)
    (hS : ∀ c V, S c V → Honest kids (runs c) V ∧ Reliable V) (hc : Closed kids s₀) (h : Reachable g ts s)
    (hx : Ran kids W P noCache S K s₀ s.core.log x R) :
    (∀ d ∈ R.flaky, ∃ r q b l m, runs d.act r q ∧ K d.act r (some (true, b)) ∧ q.outs = some l ∧ b.outs = some m ∧
      (d.path, d.rebuilt) ∈ l ∧ m.lookup d.path = some d.cached ∧ d.rebuilt ≠ d.cached) ∧
    ∀ c ∈ R.misses, ∃ ok, .finished (.act c) ok ∈ s.core.log ∧
      (ok = true → ∃ r q k, runs c r q ∧ K c r k ∧ ∀ b, k ≠ some (true, b)) := by
  have hl := logOK hg h
  generalize s.core.log = lg at hx hl
  clear h
  induction hx with
  | start => exact ⟨fun d h => (nomatch h), fun c h => (nomatch h)⟩
  | others _ _ ih => exact ih hl
  | started n _ ih =>
    obtain ⟨i1, i2⟩ := ih hl.tail
    refine ⟨i1, fun c hc => ?_⟩
    obtain ⟨ok, h1, h2⟩ := i2 c hc
    exact ⟨ok, .tail _ h1, h2⟩
  | available a _ ih =>
    obtain ⟨i1, i2⟩ := ih hl.tail
    refine ⟨i1, fun c hc => ?_⟩
    obtain ⟨ok, h1, h2⟩ := i2 c hc
    exact ⟨ok, .tail _ h1, h2⟩
  | art n _ _ ih =>
    obtain ⟨i1, i2⟩ := ih hl.tail
    refine ⟨i1, fun c hc => ?_⟩
    obtain ⟨ok, h1, h2⟩ := i2 c hc
    exact ⟨ok, .tail _ h1, h2⟩
  | @act l x x' R R' c ok n V k hr hV hK hp ih =>
    obtain ⟨i1, i2⟩ := ih hl.tail
    have i2' : ∀ c' ∈ R.misses, ∃ ok', Event.finished (.act c') ok' ∈ Event.finished (.act c) ok :: l ∧
        (ok' = true → ∃ r q k, runs c' r q ∧ K c' r k ∧ ∀ b, k ≠ some (true, b)) :=
      fun c hc => (i2 c hc).imp fun ok h => ⟨.tail _ h.1, h.2⟩
    rcases rebuild_report hp with ⟨rfl, -⟩ | ⟨e, rfl⟩ | ⟨ins, r, s', hw, hi, hcr, rfl, hok⟩
    · exact ⟨i1, i2'⟩
    · refine ⟨fun d hd => ?_, fun c' hc' => ?_⟩
      · rcases detect_flaky hd with hd | ⟨-, a, b, l, m, e, -⟩
        · exact i1 d hd
        · exact nomatch e
      · rcases detect_misses hc' with hc' | ⟨rfl, -⟩
        · exact i2' c' hc'
        · exact ⟨ok, .head _, fun h => by rw [e] at h; exact nomatch h⟩
    · have hbo : ∀ a c, g.builder a = some c → a ∈ g.outs c := fun a c => (hg.builder a c).1
      have hinv := inv hg hP hW (narrowed_honest (noCache := noCache) (K := K) (F := R) (P := P) hS) hc
        (as_build hr ⟨fun _ h => h, fun _ h => h⟩) hl.tail
      have hst : .started (.act c) ∈ l := hl.ordered.2
      have hth : ∀ i ∈ ins, i.2.digest ∈ x.store := inputs_there (inputsOf_some hi).2 fun i hi' v hv => by
        obtain ⟨v', h1, h2⟩ := hinv.done hbo
          (deps_of_started hl.ordered.1 hst (by rw [← hP.deps]; exact List.mem_map.2 ⟨i, hi', rfl⟩))
        rw [hv] at h1
        injection h1 with h1
        subst h1
        exact h2
      obtain ⟨k1, k2⟩ := createRoot_spec hW hth hcr
      obtain ⟨-, k3⟩ := k2 r rfl
      have hrun := (run_spec (hS c V hV).1 (k1.closed hinv.closed) k3).2
      refine ⟨fun d hd => ?_, fun c' hc' => ?_⟩
      · rcases detect_flaky hd with hd | ⟨rfl, a, b, l, m, e1, e2, e3, e4, e5⟩
        · exact i1 d hd
        · exact ⟨r, a, b, l, m, (hrun a e1).1, e2 ▸ hK r, e3, e4, e5⟩
      · rcases detect_misses hc' with hc' | ⟨rfl, hm⟩
        · exact i2' c' hc'
        · refine ⟨ok, .head _, fun h => ?_⟩
          have h2 := (hok h).2
          cases hq : (run V r s').1 with
          | none => exact absurd hq h2
          | some q =>
            refine ⟨r, q, k r, (hrun q hq).1, hK r, hm.resolve_left ?_⟩
            rw [hq]
            exact fun e => nomatch e

/-- The numbers in the summary: the actions missing in the cache are counted; each command was compared or missed; and
if no action failed, no flaky actions are counted exactly if none is reported. -/
theorem C105_counted (hx : Ran kids W P noCache S K s₀ s.core.log x R) :
    R.missing = R.misses.length ∧ R.tainted ≤ R.flakies ∧ R.flakies ≤ R.compared ∧
    ((∀ c, .finished (.act c) false ∉ s.core.log) → (R.flakies = 0 ↔ R.flaky = []) ∧
      R.compared + R.missing = s.core.log.countP fun e => match e with
        | .finished (.act c) _ => decide (P.work c = .command)
        | _ => false) := by
  generalize s.core.log = lg at hx
  induction hx with
  | start => exact ⟨rfl, Nat.le_refl _, Nat.le_refl _, fun _ => ⟨⟨fun _ => rfl, fun _ => rfl⟩, rfl⟩⟩
  | others _ _ ih => exact ih
  | started n _ ih =>
    obtain ⟨i1, i2, i3, i4⟩ := ih
    refine ⟨i1, i2, i3, fun h => ?_⟩
    obtain ⟨i5, i6⟩ := i4 fun c hc => h c (.tail _ hc)
    exact ⟨i5, i6.trans (by rw [List.countP_cons]; simp)⟩
  | available a _ ih =>
    obtain ⟨i1, i2, i3, i4⟩ := ih
    refine ⟨i1, i2, i3, fun h => ?_⟩
    obtain ⟨i5, i6⟩ := i4 fun c hc => h c (.tail _ hc)
    exact ⟨i5, i6.trans (by rw [List.countP_cons]; simp)⟩
  | art n _ _ ih =>
    obtain ⟨i1, i2, i3, i4⟩ := ih
    refine ⟨i1, i2, i3, fun h => ?_⟩
    obtain ⟨i5, i6⟩ := i4 fun c hc => h c (.tail _ hc)
    exact ⟨i5, i6.trans (by rw [List.countP_cons]; simp)⟩
  | @act l x x' R R' c ok n V k hr hV hK hp ih =>
    obtain ⟨i1, i2, i3, i4⟩ := ih
    have step : ∀ q kk, let D := detect P noCache c q kk R
        D.2.missing = D.2.misses.length ∧ D.2.tainted ≤ D.2.flakies ∧ D.2.flakies ≤ D.2.compared ∧
        (D.1 = true → (R.flakies = 0 ↔ R.flaky = []) → (D.2.flakies = 0 ↔ D.2.flaky = [])) ∧
        D.2.compared + D.2.missing = R.compared + R.missing + 1 := by
      intro q kk
      unfold detect
      split
      · split
        · split
          · exact ⟨i1, i2, by simp only; omega, fun e => (nomatch e), by simp only; omega⟩
          · rename_i ds e
            by_cases hd : ds = []
            · simp only [hd, if_true, ne_eq, not_true, false_and, if_false, List.append_nil]
              exact ⟨i1, i2, by omega, fun _ h => h, by omega⟩
            · simp only [if_neg hd]
              refine ⟨i1, ?_, by omega, fun _ _ => ⟨fun h => by omega, fun h => ?_⟩, by omega⟩
              · split <;> omega
              · exact absurd (List.append_eq_nil_iff.1 h).2 hd
        · exact ⟨i1, i2, by simp only; omega, fun e => (nomatch e), by simp only; omega⟩
      · exact ⟨by simp [i1], i2, i3, fun _ h => h, by simp only; omega⟩
    rcases rebuild_report hp with ⟨rfl, hw⟩ | ⟨e, rfl⟩ | ⟨ins, r, s', hw, hi, hcr, rfl, hok⟩
    · refine ⟨i1, i2, i3, fun h => ?_⟩
      obtain ⟨i5, i6⟩ := i4 fun c hc => h c (.tail _ hc)
      exact ⟨i5, i6.trans (by rw [List.countP_cons]; simp [hw])⟩
    · obtain ⟨h1, h2, h3, -⟩ := step none none
      exact ⟨h1, h2, h3, fun h => absurd (List.mem_cons_self) (e ▸ h c)⟩
    · obtain ⟨h1, h2, h3, h4, h5⟩ := step (run V r s').1 (k r)
      refine ⟨h1, h2, h3, fun h => ?_⟩
      obtain ⟨i5, i6⟩ := i4 fun c hc => h c (.tail _ hc)
      have hok' : ok = true := by
        cases ok with
        | true => rfl
        | false => exact absurd List.mem_cons_self (h c)
      refine ⟨h4 (hok hok').1 i5, ?_⟩
      rw [h5, i6, List.countP_cons]
      simp [hw]

end

end Verif.Dag.Rebuild
