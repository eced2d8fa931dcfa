import Verif.Dag.ExecutorLemmas

/-!
# Properties of builds: C86

What a build delivers: every artifact that is available has an object info, everything it refers to is in the storage
of the endpoint, and it is what the actions give for their inputs.
-/

namespace Verif.Dag.Executor

open Verif.Dig (ObjectType)
open Verif.Remote.Upload

variable {Art Act δ : Type} [DecidableEq Art] [DecidableEq Act] [DecidableEq δ]
variable {kids : δ → List δ} {W : World Art δ} {P : Plan Art Act δ} {g : Graph Art Act}
  {S : Act → Service δ → Prop} {runs : Act → δ → Reply δ → Prop} {s₀ : List δ}

/-! ## The log -/

omit [DecidableEq Art] [DecidableEq Act] in
theorem fin_of_available {l : List (Event Art Act)} (hl : Ordered g l) {a : Art} (h : .available a ∈ l) :
    .finished (source g a) true ∈ l := by
  obtain ⟨l₁, l₂, e⟩ := List.append_of_mem h
  have := (ordered_split hl e).2
  rw [e]; simp [this]

omit [DecidableEq Art] [DecidableEq Act] in
theorem deps_of_started {l : List (Event Art Act)} (hl : Ordered g l) {c : Act} (h : .started (.act c) ∈ l) {d : Art}
    (hd : d ∈ g.deps c) : .finished (source g d) true ∈ l := by
  obtain ⟨l₁, l₂, e⟩ := List.append_of_mem h
  have := (ordered_split hl e).2 d hd
  exact fin_of_available hl (by rw [e]; simp [this])

omit [DecidableEq Art] [DecidableEq Act] in
theorem started_of_fin {l : List (Event Art Act)} (hl : Ordered g l) {n : Node Art Act} {ok : Bool}
    (h : .finished n ok ∈ l) : .started n ∈ l := by
  obtain ⟨l₁, l₂, e⟩ := List.append_of_mem h
  have : .started n ∈ l₂ := (ordered_split hl e).2
  rw [e]; simp [this]

omit [DecidableEq Art] [DecidableEq Act] in
theorem builder_of_started {l : List (Event Art Act)} (hl : Ordered g l) {a : Art} (h : .started (.art a) ∈ l) :
    g.builder a = none := by
  obtain ⟨l₁, l₂, e⟩ := List.append_of_mem h
  exact (ordered_split hl e).2

theorem not_before {l : List (Event Art Act)} {n : Node Art Act} {ok : Bool} (hl : LogOK g (.finished n ok :: l)) :
    .finished n true ∉ l := by
  intro h
  have h1 := hl.once n
  have h2 := List.count_pos_iff.2 h
  rw [List.count_cons, List.count_cons] at h1
  cases ok <;> simp at h1 <;> omega

/-! ## The invariant -/

/-- What holds at any time in a build. -/
structure Inv (kids : δ → List δ) (W : World Art δ) (P : Plan Art Act δ) (g : Graph Art Act)
    (runs : Act → δ → Reply δ → Prop) (l : List (Event Art Act)) (x : Ex Art δ) : Prop where
  closed : Closed kids x.store
  src : ∀ a, g.builder a = none → x.vals a = givenInfo P a ∨ x.vals a = leaf W P a
  art : ∀ a, .finished (.art a) true ∈ l → x.vals a = leaf W P a ∧ ∃ v, x.vals a = some v ∧ v.digest ∈ x.store
  act : ∀ c, .finished (.act c) true ∈ l → Explained W P runs x.vals c ∧
    ∀ a ∈ g.outs c, ∃ v, x.vals a = some v ∧ v.digest ∈ x.store

omit [DecidableEq Art] [DecidableEq Act] [DecidableEq δ] in
theorem Inv.done {l : List (Event Art Act)} {x : Ex Art δ} (hg : ∀ a c, g.builder a = some c → a ∈ g.outs c)
    (h : Inv kids W P g runs l x) {a : Art} (ha : .finished (source g a) true ∈ l) :
    ∃ v, x.vals a = some v ∧ v.digest ∈ x.store := by
  cases hb : g.builder a with
  | none =>
    rw [source_art.2 ⟨hb, rfl⟩] at ha
    exact (h.art a ha).2
  | some c =>
    rw [source_act.2 hb] at ha
    exact (h.act c ha).2 a (hg a c hb)

omit [DecidableEq Act] [DecidableEq δ] [DecidableEq Art] in
theorem explained_congr [DecidableEq δ] {v v' : Art → Option (Info δ)} {c : Act} (hP : Fits g P)
    (h1 : ∀ d ∈ g.deps c, v' d = v d) (h2 : ∀ d ∈ g.outs c, v' d = v d) (h : Explained W P runs v c) :
    Explained W P runs v' c := by
  obtain ⟨ins, i1, i2, i3⟩ := h
  have e1 : ∀ i ∈ P.inputs c, v' i.2 = v i.2 := fun i hi => h1 _ (by rw [← hP.deps]; exact List.mem_map.2 ⟨i, hi, rfl⟩)
  have e2 : ∀ o ∈ P.files c ++ P.dirs c, v' o.2 = v o.2 :=
    fun o ho => h2 _ (by rw [← hP.outs]; exact List.mem_map.2 ⟨o, ho, rfl⟩)
  refine ⟨ins, i1, i2.trans (List.map_congr_left fun i hi => (e1 i hi).symm), ?_⟩
  cases hw : P.work c with
  | tree =>
    rw [hw] at i3
    obtain ⟨d, d1, d2⟩ := i3
    exact ⟨d, d1, fun o ho => (e2 o ho).trans (d2 o ho)⟩
  | overlay dis =>
    rw [hw] at i3
    obtain ⟨d, d1, d2⟩ := i3
    exact ⟨d, d1, fun o ho => (e2 o ho).trans (d2 o ho)⟩
  | command =>
    rw [hw] at i3
    obtain ⟨r, q, outs, r1, r2, r3, r4, r5, r6⟩ := i3
    refine ⟨r, q, outs, r1, r2, r3, r4, fun o ho => ?_, fun o ho => ?_⟩
    · rw [e2 o (List.mem_append_left _ ho)]; exact r5 o ho
    · rw [e2 o (List.mem_append_right _ ho)]; exact r6 o ho

theorem inv (hg : g.OK) (hP : Fits g P) (hW : W.OK kids) (hS : ∀ c V, S c V → Honest kids (runs c) V ∧ Reliable V)
    (hc : Closed kids s₀) {l : List (Event Art Act)} {x : Ex Art δ} (h : Ran kids W P S s₀ l x) (hl : LogOK g l) :
    Inv kids W P g runs l x := by
  have hbo : ∀ a c, g.builder a = some c → a ∈ g.outs c := fun a c => (hg.builder a c).1
  induction h with
  | start => exact ⟨hc, fun a _ => .inl rfl, fun a h => (nomatch h), fun c h => (nomatch h)⟩
  | others _ hgr ih =>
    have ih := ih hl
    refine ⟨hgr.closed ih.closed, ih.src, fun a ha => ⟨(ih.art a ha).1, ?_⟩, fun c h => ⟨(ih.act c h).1, fun a ha => ?_⟩⟩
    · obtain ⟨v, h1, h2⟩ := (ih.art a ha).2
      exact ⟨v, h1, hgr.mem h2⟩
    · obtain ⟨v, h1, h2⟩ := (ih.act c h).2 a ha
      exact ⟨v, h1, hgr.mem h2⟩
  | started n _ ih =>
    have ih := ih hl.tail
    exact ⟨ih.closed, ih.src, fun a ha => ih.art a (by simpa using ha), fun c h => ih.act c (by simpa using h)⟩
  | available b _ ih =>
    have ih := ih hl.tail
    exact ⟨ih.closed, ih.src, fun a ha => ih.art a (by simpa using ha), fun c h => ih.act c (by simpa using h)⟩
  | @art l x x' b ok n _ hp ih =>
    have ih := ih hl.tail
    have hbn : g.builder b = none := builder_of_started hl.ordered.1 hl.ordered.2
    have hnb := not_before hl
    have key : Grows kids x.store x'.store ∧ (∀ a, a ≠ b → x'.vals a = x.vals a) ∧
        (x'.vals b = givenInfo P b ∨ x'.vals b = leaf W P b) ∧
        (ok = true → x'.vals b = leaf W P b ∧ ∃ v, x'.vals b = some v ∧ v.digest ∈ x'.store) := by
      have hsrc := ih.src b hbn
      unfold processArt at hp
      cases hv : x.vals b with
      | some i =>
        rw [hv] at hp
        simp only at hp
        obtain ⟨u, hu⟩ : ∃ u, uploadKnown W n b i.digest x.store = u := ⟨_, rfl⟩
        rw [hu] at hp
        match u, hu, hp with
        | none, _, hp => exact nomatch hp
        | some (ok', s), hu, hp =>
          injection hp with e1 e2
          subst e1 e2
          obtain ⟨k1, k2⟩ := uploadKnown_spec hW hu
          have hleaf : x.vals b = leaf W P b := by
            rcases hsrc with h1 | h1
            · rw [hv] at h1 ⊢
              unfold givenInfo at h1
              unfold leaf
              cases hgv : P.given b with
              | none => rw [hgv] at h1; exact nomatch h1
              | some e => rw [hgv] at h1; exact h1
            · exact h1
          exact ⟨k1, fun _ _ => rfl, .inr hleaf, fun hok => ⟨hleaf, i, hv, k2 hok⟩⟩
      | none =>
        rw [hv] at hp
        simp only at hp
        have same : Outcome.fine false x = Outcome.fine ok x' →
            Grows kids x.store x'.store ∧ (∀ a, a ≠ b → x'.vals a = x.vals a) ∧
            (x'.vals b = givenInfo P b ∨ x'.vals b = leaf W P b) ∧
            (ok = true → x'.vals b = leaf W P b ∧ ∃ v, x'.vals b = some v ∧ v.digest ∈ x'.store) := by
          intro hp
          injection hp with e1 e2
          subst e1 e2
          exact ⟨.refl _, fun _ _ => rfl, hsrc, fun e => nomatch e⟩
        by_cases hf : P.isFile b = true
        · rw [if_pos hf] at hp
          cases hb : W.blob b with
          | none => rw [hb] at hp; exact same hp
          | some e =>
            obtain ⟨d, t⟩ := e
            rw [hb] at hp
            simp only at hp
            have gr : Grows kids x.store (W.R.up x.store [d]).2 := up_grows hW.peer fun y hy k hk => by
              rw [List.mem_singleton] at hy
              subst hy
              rw [hW.blob b y t hb] at hk
              exact nomatch hk
            by_cases hu : (W.R.up x.store [d]).1 = true
            · rw [if_pos hu] at hp
              injection hp with e1 e2
              subst e1 e2
              have hgn : P.given b = none := by
                cases hgv : P.given b with
                | none => rfl
                | some e =>
                  exfalso
                  rcases hsrc with h1 | h1
                  · rw [hv] at h1; unfold givenInfo at h1; rw [hgv] at h1; exact nomatch h1
                  · rw [hv] at h1; unfold leaf at h1; rw [hgv] at h1; exact nomatch h1
              have hleaf : leaf W P b = some ⟨d, t, false⟩ := by
                unfold leaf
                rw [hgn, if_pos hf, hb]
                rfl
              have hput : put x.vals b ⟨d, t, false⟩ b = some ⟨d, t, false⟩ := if_pos rfl
              refine ⟨gr, fun a ha => if_neg ha, .inr (hput.trans hleaf.symm),
                fun _ => ⟨hput.trans hleaf.symm, _, hput, hW.peer.up_ok _ _ hu d (by simp)⟩⟩
            · rw [if_neg hu] at hp
              injection hp with e1 e2
              subst e1 e2
              exact ⟨gr, fun _ _ => rfl, hsrc, fun e => nomatch e⟩
        · rw [if_neg hf] at hp
          exact same hp
    obtain ⟨k1, k2, k3, k4⟩ := key
    refine ⟨k1.closed ih.closed, fun a ha => ?_, fun a ha => ?_, fun c h => ?_⟩
    · by_cases e : a = b
      · subst e; exact k3
      · rw [k2 a e]; exact ih.src a ha
    · by_cases e : a = b
      · subst e
        rcases List.mem_cons.1 ha with h1 | h1
        · injection h1 with _ h2
          exact k4 h2.symm
        · exact absurd h1 hnb
      · have ha : .finished (.art a) true ∈ l := by simpa [e] using ha
        rw [k2 a e]
        obtain ⟨h1, v, h2, h3⟩ := ih.art a ha
        exact ⟨h1, v, h2, k1.mem h3⟩
    · have h : .finished (.act c) true ∈ l := by simpa using h
      obtain ⟨h1, h2⟩ := ih.act c h
      have ne : ∀ d, .finished (source g d) true ∈ l → d ≠ b := by
        rintro d hd rfl
        rw [source_art.2 ⟨hbn, rfl⟩] at hd
        exact hnb hd
      have hd : ∀ d ∈ g.deps c, x'.vals d = x.vals d := fun d hd =>
        k2 d (ne d (deps_of_started hl.ordered.1 (started_of_fin hl.ordered.1 h) hd))
      have ho : ∀ d ∈ g.outs c, x'.vals d = x.vals d := fun d hd =>
        k2 d (ne d (by rw [source_act.2 ((hg.builder d c).2 hd)]; exact h))
      refine ⟨explained_congr hP hd ho h1, fun a ha => ?_⟩
      rw [ho a ha]
      obtain ⟨v, h3, h4⟩ := h2 a ha
      exact ⟨v, h3, k1.mem h4⟩
  | @act l x x' c ok n V _ hV hp ih =>
    have ih := ih hl.tail
    have hnb := not_before hl
    have hst : .started (.act c) ∈ l := hl.ordered.2
    have hdep : ∀ i ∈ P.inputs c, .finished (source g i.2) true ∈ l := fun i hi =>
      deps_of_started hl.ordered.1 hst (by rw [← hP.deps]; exact List.mem_map.2 ⟨i, hi, rfl⟩)
    have ne : ∀ d, .finished (source g d) true ∈ l → d ∉ g.outs c := by
      intro d hd ho
      rw [source_act.2 ((hg.builder d c).2 ho)] at hd
      exact hnb hd
    obtain ⟨k1, k2, k3, k4⟩ := processAct_spec hg hP hW (hS c V hV).1 (hS c V hV).2 ih.closed (fun i hi v hv => by
      obtain ⟨v', h1, h2⟩ := ih.done hbo (hdep i hi)
      rw [hv] at h1
      injection h1 with h1
      subst h1
      exact h2) (fun i hi => ne _ (hdep i hi)) hp
    refine ⟨k1.closed ih.closed, fun a ha => ?_, fun a ha => ?_, fun c' h => ?_⟩
    · rw [k2 a (fun ho => by rw [(hg.builder a c).2 ho] at ha; exact nomatch ha)]
      exact ih.src a ha
    · have ha : .finished (.art a) true ∈ l := by simpa using ha
      have hb := builder_of_started hl.ordered.1 (started_of_fin hl.ordered.1 ha)
      rw [k2 a (fun ho => by rw [(hg.builder a c).2 ho] at hb; exact nomatch hb)]
      obtain ⟨h1, v, h2, h3⟩ := ih.art a ha
      exact ⟨h1, v, h2, k1.mem h3⟩
    · rcases List.mem_cons.1 h with h1 | h1
      · injection h1 with e1 e2
        injection e1 with e1
        subst e1
        exact k4 e2.symm
      · obtain ⟨h2, h3⟩ := ih.act c' h1
        have hd : ∀ d ∈ g.deps c', x'.vals d = x.vals d := fun d hd =>
          k2 d (ne d (deps_of_started hl.ordered.1 (started_of_fin hl.ordered.1 h1) hd))
        have ho : ∀ d ∈ g.outs c', x'.vals d = x.vals d := fun d hd =>
          k2 d (ne d (by rw [source_act.2 ((hg.builder d c').2 hd)]; exact h1))
        refine ⟨explained_congr hP hd ho h2, fun a ha => ?_⟩
        rw [ho a ha]
        obtain ⟨v, h4, h5⟩ := h3 a ha
        exact ⟨v, h4, k1.mem h5⟩

/-! ## C86 -/

section
variable {ts : List Art} {s : State Art Act} {x : Ex Art δ}

/-- At any time in a build, the storage of the endpoint is closed, and each artifact announced as available has an
object info and everything below its object is in the storage. -/
theorem C86_available (hg : g.OK) (hP : Fits g P) (hW : W.OK kids)
    (hS : ∀ c V, S c V → Honest kids (runs c) V ∧ Reliable V) (hc : Closed kids s₀) (h : Reachable g ts s)
    (hx : Ran kids W P S s₀ s.core.log x) :
    Closed kids x.store ∧ ∀ a, .available a ∈ s.core.log → ∃ v, x.vals a = some v ∧
      ∀ d, Below kids [v.digest] d → d ∈ x.store := by
  have hl := logOK hg h
  have hi := inv hg hP hW hS hc hx hl
  refine ⟨hi.closed, fun a ha => ?_⟩
  obtain ⟨v, h1, h2⟩ := hi.done (fun a c => (hg.builder a c).1) (fin_of_available hl.ordered ha)
  exact ⟨v, h1, fun d hd => hi.closed.below (fun y hy => by rw [List.mem_singleton] at hy; exact hy ▸ h2) hd⟩

/-- A build that ended without a failure: every artifact needed is available as above; those that no action builds are
what was given, or the content of the file; and for each action needed there is one result of running it on its
inputs that gives all its outputs. -/
theorem C86_build (hg : g.OK) (ha : g.Acyclic) (hP : Fits g P) (hW : W.OK kids)
    (hS : ∀ c V, S c V → Honest kids (runs c) V ∧ Reliable V) (hc : Closed kids s₀) (h : Reachable g ts s) (hq : s.quiet)
    (hf : s.core.failed = false) (hx : Ran kids W P S s₀ s.core.log x) :
    (∀ a, Cone g ts (.art a) → ∃ v, x.vals a = some v ∧ ∀ d, Below kids [v.digest] d → d ∈ x.store) ∧
    (∀ a, Cone g ts (.art a) → g.builder a = none → x.vals a = leaf W P a) ∧
    ∀ c, Cone g ts (.act c) → Explained W P runs x.vals c := by
  have hl := logOK hg h
  have hi := inv hg hP hW hS hc hx hl
  have hd := (C23_complete hg ha h hq hf).2
  refine ⟨fun a hca => (C86_available hg hP hW hS hc h hx).2 a (hd _ hca), fun a hca hb => ?_,
    fun c hcc => (hi.act c (hd _ hcc)).1⟩
  have := fin_of_available hl.ordered (hd _ hca)
  rw [source_art.2 ⟨hb, rfl⟩] at this
  exact (hi.art a this).1

/-- While an action is processed, all its inputs have object infos, its only output directory is there if it is a tree
action, and the outputs that are recorded are in the response. -/
theorem C86_defined (hg : g.OK) (hP : Fits g P) (hW : W.OK kids)
    (hS : ∀ c V, S c V → Honest kids (runs c) V ∧ Reliable V) (hc : Closed kids s₀) (h : Reachable g ts s)
    (hx : Ran kids W P S s₀ s.core.log x) {c : Act} (hst : .started (.act c) ∈ s.core.log) (V : Service δ) (n : Nat) :
    processAct W P V n c x ≠ .ub := by
  have hl := logOK hg h
  have hi := inv hg hP hW hS hc hx hl
  refine processAct_ne_ub hP fun i hi' e => ?_
  obtain ⟨v, h1, -⟩ := hi.done (fun a c => (hg.builder a c).1)
    (deps_of_started hl.ordered hst (by rw [← hP.deps]; exact List.mem_map.2 ⟨i, hi', rfl⟩))
  rw [e] at h1
  exact nomatch h1

/-- When an action is sent to the endpoint, the directory it is to be run in is completely there. -/
theorem C86_sent (hg : g.OK) (hP : Fits g P) (hW : W.OK kids)
    (hS : ∀ c V, S c V → Honest kids (runs c) V ∧ Reliable V) (hc : Closed kids s₀) (h : Reachable g ts s)
    (hx : Ran kids W P S s₀ s.core.log x) {c : Act} (hst : .started (.act c) ∈ s.core.log) (n : Nat)
    {ins : List (Str × Info δ)} (hin : inputsOf x.vals (P.inputs c) = some ins) {r : δ} {s' : List δ}
    (hr : createRoot W n ins x.store = some (some r, s')) :
    directory W ins = some r ∧ ∀ d, Below kids [r] d → d ∈ s' := by
  have hl := logOK hg h
  have hi := inv hg hP hW hS hc hx hl
  have hth : ∀ i ∈ ins, i.2.digest ∈ x.store := inputs_there (inputsOf_some hin).2 fun i hi' v hv => by
    obtain ⟨v', h1, h2⟩ := hi.done (fun a c => (hg.builder a c).1)
      (deps_of_started hl.ordered hst (by rw [← hP.deps]; exact List.mem_map.2 ⟨i, hi', rfl⟩))
    rw [hv] at h1
    injection h1 with h1
    subst h1
    exact h2
  obtain ⟨k1, k2⟩ := createRoot_spec hW hth hr
  obtain ⟨r1, r2⟩ := k2 r rfl
  exact ⟨r1, fun d hd => (k1.closed hi.closed).below (fun y hy => by rw [List.mem_singleton] at hy; exact hy ▸ r2) hd⟩

end

omit [DecidableEq Art] [DecidableEq Act] [DecidableEq δ] in
/-- If running an action always gives the same exit code and objects, the outputs follow from the inputs. -/
theorem explained_unique {W' : World Art δ} (hroot : W.root = W'.root)
    (hover : ∀ dis ins, (W.overlay dis ins).1 = (W'.overlay dis ins).1)
    (hdet : ∀ c r q q', runs c r q → runs c r q' → q.exit = q'.exit ∧ q.outs = q'.outs)
    {v v' : Art → Option (Info δ)} {c : Act} (h : Explained W P runs v c) (h' : Explained W' P runs v' c)
    (hin : ∀ i ∈ P.inputs c, v i.2 = v' i.2) : ∀ o ∈ P.files c ++ P.dirs c, v o.2 = v' o.2 := by
  obtain ⟨ins, i1, i2, i3⟩ := h
  obtain ⟨ins', j1, j2, j3⟩ := h'
  have e2 : ins.map (fun i => some i.2) = ins'.map (fun i => some i.2) := by
    rw [i2, j2]
    exact List.map_congr_left hin
  have e1 : ins.map Prod.fst = ins'.map Prod.fst := i1.trans j1.symm
  have heq : ins = ins' := by
    clear i1 i2 i3 j1 j2 j3
    induction ins generalizing ins' with
    | nil => cases ins' with
      | nil => rfl
      | cons y u => exact nomatch e1
    | cons z t ih => cases ins' with
      | nil => exact nomatch e1
      | cons y u =>
        rw [List.map_cons, List.map_cons] at e1 e2
        injection e1 with a1 a2
        injection e2 with b1 b2
        injection b1 with b1
        rw [ih u b2 a2, Prod.ext a1 b1]
  subst heq
  have hdir : directory W ins = directory W' ins := by
    unfold directory
    rw [hroot]
  cases hw : P.work c with
  | tree =>
    rw [hw] at i3 j3
    obtain ⟨d, d1, d2⟩ := i3
    obtain ⟨d', d3, d4⟩ := j3
    rw [hdir, d3] at d1
    injection d1 with d1
    subst d1
    exact fun o ho => (d2 o ho).trans (d4 o ho).symm
  | overlay dis =>
    rw [hw] at i3 j3
    obtain ⟨d, d1, d2⟩ := i3
    obtain ⟨d', d3, d4⟩ := j3
    rw [hover, d3] at d1
    injection d1 with d1
    subst d1
    exact fun o ho => (d2 o ho).trans (d4 o ho).symm
  | command =>
    rw [hw] at i3 j3
    obtain ⟨r, q, outs, r1, r2, -, r4, r5, r6⟩ := i3
    obtain ⟨r', q', outs', t1, t2, -, t4, t5, t6⟩ := j3
    rw [hdir, t1] at r1
    injection r1 with r1
    subst r1
    obtain ⟨x1, x2⟩ := hdet c _ q q' r2 t2
    rw [r4, t4] at x2
    injection x2 with x2
    subst x2
    intro o ho
    rcases List.mem_append.1 ho with ho | ho
    · obtain ⟨d, t, a1, -, a3⟩ := r5 o ho
      obtain ⟨d', t', b1, -, b3⟩ := t5 o ho
      rw [a1] at b1
      injection b1 with b1
      injection b1 with y1 y2
      subst y1 y2
      rw [a3, b3, x1]
    · obtain ⟨d, t, a1, -, a3⟩ := r6 o ho
      obtain ⟨d', t', b1, -, b3⟩ := t6 o ho
      rw [a1] at b1
      injection b1 with b1
      injection b1 with y1 y2
      subst y1 y2
      rw [a3, b3, x1]

/-- If running actions is deterministic, then all builds that end without a failure agree on the objects of all
artifacts needed: it does not matter in which order the work is done, what the storage has in the beginning and who else
is using it, what the local storage has, and how large batches are. -/
theorem C86_reproducible {W' : World Art δ} {S' : Act → Service δ → Prop} {s₀' : List δ} {ts ts' : List Art}
    {s s' : State Art Act} {x x' : Ex Art δ} (hg : g.OK) (ha : g.Acyclic) (hP : Fits g P) (hW : W.OK kids)
    (hW' : W'.OK kids) (hS : ∀ c V, S c V → Honest kids (runs c) V ∧ Reliable V)
    (hS' : ∀ c V, S' c V → Honest kids (runs c) V ∧ Reliable V) (hc : Closed kids s₀) (hc' : Closed kids s₀')
    (hroot : W.root = W'.root) (hover : ∀ dis ins, (W.overlay dis ins).1 = (W'.overlay dis ins).1)
    (hblob : W.blob = W'.blob) (hdet : ∀ c r q q', runs c r q → runs c r q' → q.exit = q'.exit ∧ q.outs = q'.outs)
    (h : Reachable g ts s) (hq : s.quiet) (hf : s.core.failed = false) (hx : Ran kids W P S s₀ s.core.log x)
    (h' : Reachable g ts' s') (hq' : s'.quiet) (hf' : s'.core.failed = false)
    (hx' : Ran kids W' P S' s₀' s'.core.log x') {a : Art} (ha1 : Cone g ts (.art a)) (ha2 : Cone g ts' (.art a)) :
    x.vals a = x'.vals a := by
  obtain ⟨-, l1, e1⟩ := C86_build hg ha hP hW hS hc h hq hf hx
  obtain ⟨-, l2, e2⟩ := C86_build hg ha hP hW' hS' hc' h' hq' hf' hx'
  have leaves : ∀ a, g.builder a = none → Cone g ts (.art a) → Cone g ts' (.art a) → x.vals a = x'.vals a := by
    intro a hb c1 c2
    rw [l1 a c1 hb, l2 a c2 hb]
    unfold leaf
    rw [hblob]
  have key : ∀ c, Cone g ts (.act c) → Cone g ts' (.act c) → ∀ b ∈ g.outs c, x.vals b = x'.vals b := by
    intro c
    induction c using ha.induction with
    | h c ih =>
      intro c1 c2 b hb
      rw [← hP.outs] at hb
      obtain ⟨o, ho, rfl⟩ := List.mem_map.1 hb
      refine explained_unique hroot hover hdet (e1 c c1) (e2 c c2) (fun i hi => ?_) o ho
      have hd : i.2 ∈ g.deps c := by rw [← hP.deps]; exact List.mem_map.2 ⟨i, hi, rfl⟩
      cases hbd : g.builder i.2 with
      | none => exact leaves _ hbd (.dep c1 hd) (.dep c2 hd)
      | some c' =>
        exact ih c' ⟨i.2, hd, hbd⟩ (.builder (.dep c1 hd) hbd) (.builder (.dep c2 hd) hbd) _ ((hg.builder _ _).1 hbd)
  cases hb : g.builder a with
  | none => exact leaves a hb ha1 ha2
  | some c => exact key c (.builder ha1 hb) (.builder ha2 hb) a ((hg.builder a c).1 hb)

end Verif.Dag.Executor
