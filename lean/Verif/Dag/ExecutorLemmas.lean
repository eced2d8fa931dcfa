import Verif.Dag.Executor

/-!
# Lemmas about the executor
-/

namespace Verif.Dag.Executor

open Verif.Dig (ObjectType)
open Verif.Remote.Upload

variable {Art Act δ : Type} [DecidableEq Art] [DecidableEq Act] [DecidableEq δ]
variable {kids : δ → List δ} {W : World Art δ} {P : Plan Art Act δ} {g : Graph Art Act}

/-! ## Uploads -/

omit [DecidableEq δ] in
theorem missing_nil {R : Peer δ} (hR : R.OK) {s : List δ} {d : δ} (h : R.missing s [d] = []) : d ∈ s :=
  hR.missing_all s [d] d (by simp) (by rw [h]; simp)

theorem uploadGit_spec {S : Source δ} {R : Peer δ} {lim : Nat} (hR : R.OK) (hS : Whole S kids) {n : Nat} {d : δ}
    {s : List δ} {ok : Bool} {s' : List δ} (h : uploadGit S R lim n d s = some (ok, s')) :
    Grows kids s s' ∧ (ok = true → d ∈ s') := by
  unfold uploadGit at h
  by_cases hr : S.readable d = true
  · rw [if_pos hr] at h
    by_cases ht : S.tree d = true
    · rw [if_pos ht] at h
      obtain ⟨o, ho⟩ : ∃ o, verifyOrUpload S R lim n (S.sub d) s = o := ⟨_, rfl⟩
      rw [ho] at h
      have key := fun ok s1 => verifyOrUpload_spec (lim := lim) hR (P := fun _ => True) (s0 := []) (kids := kids)
        (S := S) (fun _ _ _ _ _ => trivial) (fun d _ k hk => .inl (hS d k hk)) n (S.sub d) s ok s1 (fun _ _ => trivial)
        (fun _ h => nomatch h)
      match o, ho, h with
      | none, _, h => exact nomatch h
      | some (false, s1), ho, h =>
        injection h with h
        injection h with h1 h2
        subst h1 h2
        exact ⟨(key _ _ ho).1, fun e => nomatch e⟩
      | some (true, s1), ho, h =>
        obtain ⟨h1, h2⟩ := key _ _ ho
        injection h with h
        have e1 : (R.up s1 [d]).1 = ok := by rw [h]
        have e2 : (R.up s1 [d]).2 = s' := by rw [h]
        subst e1 e2
        refine ⟨h1.trans (up_grows hR fun x hx k hk => ?_), fun hok => hR.up_ok s1 [d] hok d (by simp)⟩
        rw [List.mem_singleton] at hx
        subst hx
        exact h2 rfl k (hS _ k hk).2
    · rw [if_neg ht] at h
      injection h with h
      have e1 : (R.up s [d]).1 = ok := by rw [h]
      have e2 : (R.up s [d]).2 = s' := by rw [h]
      subst e1 e2
      refine ⟨up_grows hR fun x hx k hk => ?_, fun hok => hR.up_ok s [d] hok d (by simp)⟩
      rw [List.mem_singleton] at hx
      subst hx
      exact absurd (hS _ k hk).1 ht
  · rw [if_neg hr] at h
    injection h with h
    injection h with h1 h2
    subst h1 h2
    exact ⟨.refl _, fun e => nomatch e⟩

omit [DecidableEq Art] in
theorem uploadKnown_spec (hW : W.OK kids) {n : Nat} {a : Art} {d : δ} {s : List δ} {ok : Bool} {s' : List δ}
    (h : uploadKnown W n a d s = some (ok, s')) : Grows kids s s' ∧ (ok = true → d ∈ s') := by
  unfold uploadKnown at h
  by_cases hm : W.R.missing s [d] = []
  · rw [if_pos hm] at h
    injection h with h
    injection h with h1 h2
    subst h1 h2
    exact ⟨.refl _, fun _ => missing_nil hW.peer hm⟩
  · rw [if_neg hm] at h
    obtain ⟨o, ho⟩ : ∃ o, (if W.localHas d then upload W.localSrc W.R W.lim n [d] s else some (false, s)) = o := ⟨_, rfl⟩
    rw [ho] at h
    have key : ∀ ok s1, o = some (ok, s1) → Grows kids s s1 ∧ (ok = true → d ∈ s1) := by
      intro ok s1 e
      rw [e] at ho
      by_cases hl : W.localHas d = true
      · rw [if_pos hl] at ho
        obtain ⟨k1, k2⟩ := upload_spec (lim := W.lim) hW.peer (P := fun _ => True) (s0 := []) (kids := kids)
          (S := W.localSrc) (fun _ _ _ _ _ => trivial) (fun d _ k hk => .inl (hW.localSrc d k hk)) n [d] s ok s1
          (fun _ _ => trivial) (fun _ h => nomatch h) ho
        exact ⟨k1, fun hok => k2 hok d (by simp)⟩
      · rw [if_neg hl] at ho
        injection ho with ho
        injection ho with h1 h2
        subst h1 h2
        exact ⟨.refl _, fun e => nomatch e⟩
    match o, h with
    | none, h => exact nomatch h
    | some (true, s1), h =>
      injection h with h
      injection h with h1 h2
      subst h1 h2
      exact key _ _ rfl
    | some (false, s1), h =>
      obtain ⟨h1, h2⟩ := uploadGit_spec hW.peer (hW.gitSrc a) h
      exact ⟨(key _ _ rfl).1.trans h1, h2⟩

omit [DecidableEq δ] in
theorem writeAll_spec {R : Peer δ} (hR : R.OK) : ∀ (l s : List δ),
    (∀ a d b, l = a ++ d :: b → ∀ k ∈ kids d, k ∈ s ++ a) →
    Grows kids s (writeAll R l s).2 ∧ ((writeAll R l s).1 = true → ∀ d ∈ l, d ∈ (writeAll R l s).2)
  | [], s, _ => ⟨.refl _, fun _ d hd => nomatch hd⟩
  | t :: l, s, h => by
    have hg : Grows kids s (R.up s [t]).2 := up_grows hR fun d hd k hk => by
      rw [List.mem_singleton] at hd
      subst hd
      simpa using h [] d l rfl k hk
    rw [writeAll]
    by_cases hu : (R.up s [t]).1 = true
    · rw [if_pos hu]
      have ht := hR.up_ok s [t] hu t (by simp)
      obtain ⟨h1, h2⟩ := writeAll_spec hR l (R.up s [t]).2 (fun a d b e k hk => by
        have := h (t :: a) d b (by rw [e]; rfl) k hk
        rw [List.mem_append, List.mem_cons] at this
        rw [List.mem_append]
        rcases this with h1 | rfl | h1
        · exact .inl (hg.mem h1)
        · exact .inl ht
        · exact .inr h1)
      refine ⟨hg.trans h1, fun hok d hd => ?_⟩
      rcases List.mem_cons.mp hd with rfl | hd
      · exact h1.mem ht
      · exact h2 hok d hd
    · rw [if_neg hu]
      exact ⟨hg, fun e => nomatch e⟩

/-! ## Inputs -/

omit [DecidableEq Art] [DecidableEq δ] in
theorem inputsOf_some {vals : Art → Option (Info δ)} : ∀ {l : List (Str × Art)} {ins : List (Str × Info δ)},
    inputsOf vals l = some ins →
    ins.map Prod.fst = l.map Prod.fst ∧ ins.map (fun i => some i.2) = l.map (fun i => vals i.2)
  | [], ins, h => by
    injection h with h
    subst h
    exact ⟨rfl, rfl⟩
  | (p, a) :: t, ins, h => by
    rw [inputsOf] at h
    cases hv : vals a with
    | none => rw [hv] at h; exact nomatch h
    | some i =>
      cases ht : inputsOf vals t with
      | none => rw [hv, ht] at h; exact nomatch h
      | some l =>
        rw [hv, ht] at h
        injection h with h
        subst h
        obtain ⟨h1, h2⟩ := inputsOf_some ht
        simp only [List.map_cons, h1, h2, hv, and_self]

omit [DecidableEq Art] [DecidableEq δ] in
theorem inputsOf_ne {vals : Art → Option (Info δ)} : ∀ {l : List (Str × Art)}, (∀ i ∈ l, vals i.2 ≠ none) →
    inputsOf vals l ≠ none
  | [], _ => fun e => nomatch e
  | (p, a) :: t, h => by
    rw [inputsOf]
    have h1 := h (p, a) (by simp)
    have h2 := inputsOf_ne (l := t) fun i hi => h i (List.mem_cons_of_mem _ hi)
    cases hv : vals a with
    | none => exact absurd hv h1
    | some i =>
      cases ht : inputsOf vals t with
      | none => exact absurd ht h2
      | some l => exact fun e => nomatch e

omit [DecidableEq Art] [DecidableEq δ] in
theorem inputs_there {vals : Art → Option (Info δ)} {s : List δ} {l : List (Str × Art)} {ins : List (Str × Info δ)}
    (h : ins.map (fun i => some i.2) = l.map (fun i => vals i.2))
    (hl : ∀ i ∈ l, ∀ v, vals i.2 = some v → v.digest ∈ s) : ∀ i ∈ ins, i.2.digest ∈ s := by
  intro i hi
  have : some i.2 ∈ ins.map (fun i => some i.2) := List.mem_map.2 ⟨i, hi, rfl⟩
  rw [h] at this
  obtain ⟨j, hj, e⟩ := List.mem_map.1 this
  exact hl j hj i.2 e

omit [DecidableEq δ] in
theorem anyFailed_eq [DecidableEq δ] (ins : List (Str × Info δ)) :
    anyFailed ins = decide (∃ i ∈ ins, i.2.failed = true) := by
  unfold anyFailed
  rw [Bool.eq_iff_iff, List.any_eq_true, decide_eq_true_eq]

theorem isTree_iff {t : ObjectType} : t.isTree = true ↔ t = .tree := by cases t <;> simp [ObjectType.isTree]

/-! ## Actions -/

omit [DecidableEq Art] in
theorem createRoot_spec (hW : W.OK kids) {n : Nat} {ins : List (Str × Info δ)} {s : List δ} {o : Option δ} {s' : List δ}
    (hin : ∀ i ∈ ins, i.2.digest ∈ s) (h : createRoot W n ins s = some (o, s')) :
    Grows kids s s' ∧ ∀ r, o = some r → directory W ins = some r ∧ r ∈ s' := by
  unfold createRoot at h
  cases hs : single ins with
  | some d =>
    rw [hs] at h
    injection h with h
    injection h with h1 h2
    subst h1 h2
    refine ⟨.refl _, fun r e => ?_⟩
    injection e with e
    subst e
    match ins, hs with
    | [(p, i)], hs =>
      rw [single] at hs
      by_cases hc : (p = ['.'] ∨ p = []) ∧ i.type.isTree = true
      · rw [if_pos hc] at hs
        injection hs with hs
        subst hs
        refine ⟨?_, hin (p, i) (by simp)⟩
        simp only [directory]
        rw [if_pos ⟨hc.1, isTree_iff.1 hc.2⟩]
      · rw [if_neg hc] at hs
        exact nomatch hs
  | none =>
    rw [hs] at h
    have hd : directory W ins = W.root (strip ins) := by
      unfold directory
      split
      · rename_i p i
        rw [single] at hs
        split at hs
        · exact nomatch hs
        · rename_i hc
          rw [if_neg fun hc' => hc ⟨hc'.1, isTree_iff.2 hc'.2⟩]
      · rfl
    rw [hd]
    cases hr : W.root (strip ins) with
    | none =>
      rw [hr] at h
      injection h with h
      injection h with h1 h2
      subst h1 h2
      exact ⟨.refl _, fun r e => nomatch e⟩
    | some r =>
      rw [hr] at h
      simp only at h
      have hin' : ∀ i ∈ strip ins, i.2.1 ∈ s := by
        intro i hi
        obtain ⟨j, hj, rfl⟩ := List.mem_map.1 hi
        exact hin j hj
      obtain ⟨ht, hc⟩ := hW.root _ r s hr hin'
      obtain ⟨u, hu⟩ : ∃ u, uploadTree (W.rootSrc (strip ins)) W.R W.lim n (decide (W.R.missing s [r] = [])) r s = u :=
        ⟨_, rfl⟩
      rw [hu] at h
      have key := fun ok s1 => uploadTree_spec (kids := kids) (lim := W.lim) hW.peer n _ r s
        (fun e => missing_nil hW.peer (of_decide_eq_true e)) ht hc ok s1
      match u, hu, h with
      | none, _, h => exact nomatch h
      | some (false, s1), hu, h =>
        injection h with h
        injection h with h1 h2
        subst h1 h2
        exact ⟨(key _ _ hu).1, fun r e => nomatch e⟩
      | some (true, s1), hu, h =>
        injection h with h
        injection h with h1 h2
        subst h1 h2
        obtain ⟨k1, k2⟩ := key _ _ hu
        refine ⟨k1, fun r' e => ?_⟩
        injection e with e
        subst e
        exact ⟨rfl, k2 rfl r (by simp)⟩

omit [DecidableEq δ] in
theorem run_spec {runs : δ → Reply δ → Prop} {V : Service δ} (hV : Honest kids runs V) {r : δ} {s : List δ}
    (hc : Closed kids s) (hr : r ∈ s) :
    Grows kids s (run V r s).2 ∧ ∀ q, (run V r s).1 = some q → runs r q ∧
      (Reliable V → ∀ l, q.outs = some l → ∀ o ∈ l, o.2.1 ∈ (run V r s).2) := by
  have h1 := hV.grows r s hc hr
  have h2 := fun q => hV.runs r s q hc hr
  have h3 := fun q l => hV.there r s q l hc hr
  unfold run
  obtain ⟨a, s', e⟩ : ∃ a s', V.exec r s = (a, s') := ⟨_, _, rfl⟩
  rw [e] at h1 h2 h3 ⊢
  cases a with
  | none => exact ⟨h1, fun q e => nomatch e⟩
  | some q =>
    cases hb : V.back with
    | none =>
      refine ⟨h1, fun q' e => ⟨h2 q' e, fun _ l hl => h3 q' l e hb hl⟩⟩
    | some b =>
      cases ho : q.outs with
      | none => simp only [ho]; exact ⟨h1, fun q e => nomatch e⟩
      | some l =>
        simp only [ho]
        obtain ⟨k1, k2⟩ := hV.back b hb (l.map fun o => o.2.1) s' (h1.closed hc)
        refine ⟨h1.trans k1, fun q' e => ?_⟩
        injection e with e
        subst e
        refine ⟨h2 q rfl, fun hrel l' hl' o hol => ?_⟩
        rw [ho] at hl'
        injection hl' with hl'
        subst hl'
        exact k2 (hrel b hb _ _) _ (List.mem_map.2 ⟨o, hol, rfl⟩)

omit [DecidableEq δ] in
theorem save_spec {outs : Named δ} {f : Bool} : ∀ {l : List (Str × Art)} {v v' : Art → Option (Info δ)},
    save outs f l v = some v' → (∀ b, b ∉ l.map Prod.snd → v' b = v b) ∧
      ((l.map Prod.snd).Nodup → ∀ o ∈ l, ∃ d t, outs.lookup o.1 = some (d, t) ∧ v' o.2 = some ⟨d, t, f⟩)
  | [], v, v', h => by
    injection h with h
    subst h
    exact ⟨fun _ _ => rfl, fun _ o ho => nomatch ho⟩
  | (p, a) :: t, v, v', h => by
    rw [save] at h
    cases hl : outs.lookup p with
    | none => rw [hl] at h; exact nomatch h
    | some e =>
      obtain ⟨d, ty⟩ := e
      rw [hl] at h
      obtain ⟨h1, h2⟩ := save_spec h
      refine ⟨fun b hb => ?_, fun hn o ho => ?_⟩
      · rw [List.map_cons, List.mem_cons, not_or] at hb
        rw [h1 b hb.2]
        exact if_neg hb.1
      · rw [List.map_cons, List.nodup_cons] at hn
        rcases List.mem_cons.mp ho with rfl | ho
        · exact ⟨d, ty, hl, by rw [h1 a hn.1]; exact if_pos rfl⟩
        · exact h2 hn.2 o ho

omit [DecidableEq δ] in
theorem save_ne {outs : Named δ} {f : Bool} : ∀ {l : List (Str × Art)} {v : Art → Option (Info δ)},
    (∀ o ∈ l, outs.lookup o.1 ≠ none) → save outs f l v ≠ none
  | [], v, _ => fun e => nomatch e
  | (p, a) :: t, v, h => by
    rw [save]
    cases hl : outs.lookup p with
    | none => exact absurd hl (h (p, a) (by simp))
    | some e => exact save_ne fun o ho => h o (List.mem_cons_of_mem _ ho)

omit [DecidableEq Art] [DecidableEq δ] in
theorem exist_spec {outs : Named δ} {good : ObjectType → Bool} {l : List (Str × Art)} (h : ¬ exist outs good l = false) :
    ∀ o ∈ l, ∃ d t, outs.lookup o.1 = some (d, t) ∧ good t = true := by
  rw [Bool.not_eq_false] at h
  intro o ho
  have := List.all_eq_true.1 h o ho
  cases hl : outs.lookup o.1 with
  | none => simp only [hl] at this; exact nomatch this
  | some e =>
    simp only [hl] at this
    exact ⟨e.1, e.2, rfl, this⟩

omit [DecidableEq Art] [DecidableEq δ] in
theorem lookup_mem {outs : Named δ} {p : Str} {e : δ × ObjectType} (h : outs.lookup p = some e) : (p, e) ∈ outs := by
  induction outs with
  | nil => exact nomatch h
  | cons x t ih =>
    rw [List.lookup_cons] at h
    by_cases hx : (p == x.1) = true
    · rw [hx] at h
      injection h with h
      have : p = x.1 := by simpa using hx
      subst this h
      exact List.mem_cons_self
    · rw [Bool.not_eq_true] at hx
      rw [hx] at h
      exact List.mem_cons_of_mem _ (ih h)

omit [DecidableEq Act] [DecidableEq δ] in
/-- What parsing a response gives. -/
theorem parse_spec {c : Act} {ins : List (Str × Info δ)} {q : Reply δ} {x x' : Ex Art δ} {ok : Bool}
    (h : parse P c ins q x = .fine ok x') :
    x'.store = x.store ∧ (ok = false → x'.vals = x.vals) ∧
    (ok = true → (q.exit = 0 ∨ P.mayFail c = true) ∧ ∃ outs, q.outs = some outs ∧
      (∀ o ∈ P.files c, ∃ d t, outs.lookup o.1 = some (d, t) ∧ goodFile t = true) ∧
      (∀ o ∈ P.dirs c, ∃ d t, outs.lookup o.1 = some (d, t) ∧ goodDir t = true) ∧
      save outs (anyFailed ins || decide (q.exit ≠ 0)) (P.files c ++ P.dirs c) x.vals = some x'.vals) := by
  unfold parse at h
  by_cases h1 : q.exit ≠ 0 ∧ P.mayFail c = false
  · rw [if_pos h1] at h
    injection h with e1 e2
    subst e1 e2
    exact ⟨rfl, fun _ => rfl, fun e => nomatch e⟩
  · rw [if_neg h1] at h
    cases ho : q.outs with
    | none =>
      rw [ho] at h
      injection h with e1 e2
      subst e1 e2
      exact ⟨rfl, fun _ => rfl, fun e => nomatch e⟩
    | some outs =>
      rw [ho] at h
      simp only at h
      by_cases h2 : outs = [] ∨ exist outs goodFile (P.files c) = false ∨ exist outs goodDir (P.dirs c) = false
      · rw [if_pos h2] at h
        injection h with e1 e2
        subst e1 e2
        exact ⟨rfl, fun _ => rfl, fun e => nomatch e⟩
      · rw [if_neg h2] at h
        rw [not_or, not_or] at h2
        cases hs : save outs (anyFailed ins || decide (q.exit ≠ 0)) (P.files c ++ P.dirs c) x.vals with
        | none => rw [hs] at h; exact nomatch h
        | some v =>
          rw [hs] at h
          injection h with e1 e2
          subst e1 e2
          refine ⟨rfl, (fun e => nomatch e), fun _ => ⟨?_, outs, rfl, exist_spec h2.2.1, exist_spec h2.2.2, hs⟩⟩
          by_cases he : q.exit = 0
          · exact .inl he
          · right
            cases hm : P.mayFail c with
            | true => rfl
            | false => exact absurd ⟨he, hm⟩ h1

omit [DecidableEq Act] [DecidableEq δ] in
theorem parse_ne_ub {c : Act} {ins : List (Str × Info δ)} {q : Reply δ} {x : Ex Art δ} : parse P c ins q x ≠ .ub := by
  unfold parse
  intro h
  split at h
  · exact nomatch h
  · split at h
    · exact nomatch h
    · split at h
      · exact nomatch h
      · rename_i h2
        rw [not_or, not_or] at h2
        split at h
        · rename_i hs
          refine save_ne (fun o ho => ?_) hs
          rcases List.mem_append.1 ho with ho | ho
          · obtain ⟨d, t, e, -⟩ := exist_spec h2.2.1 o ho
            rw [e]; exact fun e => nomatch e
          · obtain ⟨d, t, e, -⟩ := exist_spec h2.2.2 o ho
            rw [e]; exact fun e => nomatch e
        · exact nomatch h

/-- What processing an action gives, if its inputs are there and none of them is one of its outputs. -/
theorem processAct_spec (hg : g.OK) (hP : Fits g P) (hW : W.OK kids) {runs : Act → δ → Reply δ → Prop} {V : Service δ}
    {c : Act} (hV : Honest kids (runs c) V) (hrel : Reliable V) {n : Nat} {x x' : Ex Art δ} {ok : Bool}
    (hc : Closed kids x.store) (hin : ∀ i ∈ P.inputs c, ∀ v, x.vals i.2 = some v → v.digest ∈ x.store)
    (hne : ∀ i ∈ P.inputs c, i.2 ∉ g.outs c) (h : processAct W P V n c x = .fine ok x') :
    Grows kids x.store x'.store ∧ (∀ b, b ∉ g.outs c → x'.vals b = x.vals b) ∧ (ok = false → x'.vals = x.vals) ∧
    (ok = true → Explained W P runs x'.vals c ∧ ∀ a ∈ g.outs c, ∃ v, x'.vals a = some v ∧ v.digest ∈ x'.store) := by
  unfold processAct at h
  cases hi : inputsOf x.vals (P.inputs c) with
  | none => rw [hi] at h; exact nomatch h
  | some ins =>
    rw [hi] at h
    simp only at h
    obtain ⟨i1, i2⟩ := inputsOf_some hi
    have hth := inputs_there i2 hin
    have hth' : ∀ i ∈ strip ins, i.2.1 ∈ x.store := by
      intro i hi
      obtain ⟨j, hj, rfl⟩ := List.mem_map.1 hi
      exact hth j hj
    have same : ∀ v' : Art → Option (Info δ), (∀ b, b ∉ g.outs c → v' b = x.vals b) →
        ins.map (fun i => some i.2) = (P.inputs c).map (fun i => v' i.2) := by
      intro v' hv'
      rw [i2]
      exact List.map_congr_left fun i hi => (hv' i.2 (hne i hi)).symm
    have setT : ∀ d s, d ∈ s → P.work c ≠ .command → setTree P c ins d x.vals s = .fine ok x' →
        x'.store = s ∧ ok = true ∧ (∀ b, b ∉ g.outs c → x'.vals b = x.vals b) ∧
        (∀ o ∈ P.files c ++ P.dirs c, x'.vals o.2 = some ⟨d, .tree, decide (∃ i ∈ ins, i.2.failed = true)⟩) ∧
        ∀ a ∈ g.outs c, ∃ v, x'.vals a = some v ∧ v.digest ∈ x'.store := by
      intro d s hd hw h
      obtain ⟨w1, o, w2⟩ := hP.tree c hw
      have ho : g.outs c = [o.2] := by rw [← hP.outs, w1, w2]; rfl
      simp only [setTree, w2] at h
      injection h with e1 e2
      subst e1 e2
      refine ⟨rfl, rfl, fun b hb => ?_, fun o' ho' => ?_, fun a ha => ?_⟩
      · rw [ho, List.mem_singleton] at hb
        exact if_neg hb
      · rw [w1, w2, List.nil_append, List.mem_singleton] at ho'
        subst ho'
        rw [← anyFailed_eq]
        exact if_pos rfl
      · rw [ho, List.mem_singleton] at ha
        exact ⟨_, if_pos ha, hd⟩
    cases hw : P.work c with
    | overlay dis =>
      rw [hw] at h
      simp only at h
      obtain ⟨w1, w2⟩ := hW.overlay dis (strip ins) x.store hc hth'
      obtain ⟨k1, k2⟩ := writeAll_spec (kids := kids) hW.peer (W.overlay dis (strip ins)).2 x.store w1
      obtain ⟨u, s, hu⟩ : ∃ u s, writeAll W.R (W.overlay dis (strip ins)).2 x.store = (u, s) := ⟨_, _, rfl⟩
      rw [hu] at h k1 k2
      have bad : Outcome.fine false ⟨x.vals, s⟩ = Outcome.fine ok x' →
          Grows kids x.store x'.store ∧ (∀ b, b ∉ g.outs c → x'.vals b = x.vals b) ∧ (ok = false → x'.vals = x.vals) ∧
          (ok = true → Explained W P runs x'.vals c ∧ ∀ a ∈ g.outs c, ∃ v, x'.vals a = some v ∧ v.digest ∈ x'.store) := by
        intro h
        injection h with e1 e2
        subst e1 e2
        exact ⟨k1, fun _ _ => rfl, fun _ => rfl, fun e => nomatch e⟩
      cases u with
      | false => exact bad (by simpa using h)
      | true =>
        cases hd : (W.overlay dis (strip ins)).1 with
        | none => rw [hd] at h; exact bad (by simpa using h)
        | some d =>
          rw [hd] at h
          simp only at h
          have hds : d ∈ s := by
            rcases List.mem_append.1 (w2 d hd) with h1 | h1
            · exact k1.mem h1
            · exact k2 rfl d h1
          obtain ⟨e1, e2, t1, t2, t3⟩ := setT d s hds (by rw [hw]; exact fun e => nomatch e) h
          refine ⟨by rw [e1]; exact k1, t1, (fun e => absurd (e2.symm.trans e) (by decide)), fun _ => ⟨?_, t3⟩⟩
          refine ⟨ins, i1, same _ t1, ?_⟩
          rw [hw]
          exact ⟨d, hd, t2⟩
    | tree =>
      rw [hw] at h
      simp only at h
      obtain ⟨u, hu⟩ : ∃ u, createRoot W n ins x.store = u := ⟨_, rfl⟩
      rw [hu] at h
      match u, hu, h with
      | none, _, h => exact nomatch h
      | some (none, s), hu, h =>
        injection h with e1 e2
        subst e1 e2
        exact ⟨(createRoot_spec hW hth hu).1, fun _ _ => rfl, fun _ => rfl, fun e => nomatch e⟩
      | some (some r, s), hu, h =>
        obtain ⟨k1, k2⟩ := createRoot_spec hW hth hu
        obtain ⟨r1, r2⟩ := k2 r rfl
        obtain ⟨e1, e2, t1, t2, t3⟩ := setT r s r2 (by rw [hw]; exact fun e => nomatch e) h
        refine ⟨by rw [e1]; exact k1, t1, (fun e => absurd (e2.symm.trans e) (by decide)), fun _ => ⟨?_, t3⟩⟩
        refine ⟨ins, i1, same _ t1, ?_⟩
        rw [hw]
        exact ⟨r, r1, t2⟩
    | command =>
      rw [hw] at h
      simp only at h
      obtain ⟨u, hu⟩ : ∃ u, createRoot W n ins x.store = u := ⟨_, rfl⟩
      rw [hu] at h
      match u, hu, h with
      | none, _, h => exact nomatch h
      | some (none, s), hu, h =>
        injection h with e1 e2
        subst e1 e2
        exact ⟨(createRoot_spec hW hth hu).1, fun _ _ => rfl, fun _ => rfl, fun e => nomatch e⟩
      | some (some r, s), hu, h =>
        obtain ⟨k1, k2⟩ := createRoot_spec hW hth hu
        obtain ⟨r1, r2⟩ := k2 r rfl
        obtain ⟨m1, m2⟩ := run_spec hV (k1.closed hc) r2
        obtain ⟨y, s', hy⟩ : ∃ y s', run V r s = (y, s') := ⟨_, _, rfl⟩
        simp only [hy] at h m1 m2
        cases y with
        | none =>
          injection h with e1 e2
          subst e1 e2
          exact ⟨k1.trans m1, fun _ _ => rfl, fun _ => rfl, fun e => nomatch e⟩
        | some q =>
          obtain ⟨p1, p2, p3⟩ := parse_spec h
          obtain ⟨q1, q2⟩ := m2 q rfl
          cases ok with
          | false =>
            refine ⟨by rw [p1]; exact k1.trans m1, fun b _ => by rw [p2 rfl], p2, fun e => nomatch e⟩
          | true =>
            obtain ⟨a1, outs, a2, a3, a4, a5⟩ := p3 rfl
            obtain ⟨s1, s2⟩ := save_spec a5
            rw [hP.outs] at s1 s2
            have s2 := s2 (hg.outs c)
            have hf : (anyFailed ins || decide (q.exit ≠ 0)) =
                decide ((∃ i ∈ ins, i.2.failed = true) ∨ q.exit ≠ 0) := by
              rw [anyFailed_eq, ← Bool.decide_or]
            rw [hf] at s2
            refine ⟨by rw [p1]; exact k1.trans m1, s1, (fun e => nomatch e), fun _ => ⟨⟨ins, i1, same _ s1, ?_⟩, fun a ha => ?_⟩⟩
            · rw [hw]
              refine ⟨r, q, outs, r1, q1, a1, a2, fun o ho => ?_, fun o ho => ?_⟩
              · obtain ⟨d, t, b1, b2⟩ := a3 o ho
                obtain ⟨d', t', b3, b4⟩ := s2 o (List.mem_append_left _ ho)
                rw [b1] at b3
                injection b3 with b3
                injection b3 with e1 e2
                subst e1 e2
                exact ⟨d, t, b1, (fun e => by rw [e] at b2; exact nomatch b2), b4⟩
              · obtain ⟨d, t, b1, b2⟩ := a4 o ho
                obtain ⟨d', t', b3, b4⟩ := s2 o (List.mem_append_right _ ho)
                rw [b1] at b3
                injection b3 with b3
                injection b3 with e1 e2
                subst e1 e2
                refine ⟨d, t, b1, ?_, b4⟩
                cases t with
                | tree => exact .inl rfl
                | symlink => exact .inr rfl
                | file => exact nomatch b2
                | executable => exact nomatch b2
            · rw [← hP.outs] at ha
              obtain ⟨o, ho, rfl⟩ := List.mem_map.1 ha
              obtain ⟨d, t, b1, b2⟩ := s2 o ho
              refine ⟨_, b2, ?_⟩
              rw [p1]
              exact q2 hrel outs a2 _ (lookup_mem b1)

omit [DecidableEq Act] in
/-- There is no access to what is not there, if the inputs have object infos. -/
theorem processAct_ne_ub {V : Service δ} {n : Nat} {c : Act} {x : Ex Art δ}
    (hP : Fits g P) (hin : ∀ i ∈ P.inputs c, x.vals i.2 ≠ none) : processAct W P V n c x ≠ .ub := by
  have setT : P.work c ≠ .command → ∀ ins d s, setTree P c ins d x.vals s ≠ .ub := by
    intro hw ins d s
    obtain ⟨-, o, w2⟩ := hP.tree c hw
    simp only [setTree, w2]
    exact fun e => nomatch e
  unfold processAct
  cases hi : inputsOf x.vals (P.inputs c) with
  | none => exact absurd hi (inputsOf_ne hin)
  | some ins =>
    simp only
    cases hw : P.work c with
    | overlay dis =>
      simp only
      split
      · exact setT (by rw [hw]; exact fun e => nomatch e) _ _ _
      · exact fun e => nomatch e
    | tree =>
      simp only
      split
      · exact fun e => nomatch e
      · exact fun e => nomatch e
      · exact setT (by rw [hw]; exact fun e => nomatch e) _ _ _
    | command =>
      simp only
      split
      · exact fun e => nomatch e
      · exact fun e => nomatch e
      · split
        · exact fun e => nomatch e
        · exact parse_ne_ub

end Verif.Dag.Executor
