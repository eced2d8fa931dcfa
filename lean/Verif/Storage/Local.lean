import Verif.Storage.Inv

/-!
# What the operations on a single generation do
-/

namespace Verif.Storage

open Prog

variable {E : Env} {U : Bytes → Prop} {rk : Ranks E U} {T : Prop}

theorem wp_read_bind {M : Mode} {A : Type} {l : Loc} {f : Option Bytes → Prog A}
    {Q : A → World → Prop} {σ : World}
    (h : ∀ σ', M.R σ σ' → M.I σ' → wp M (f (σ' l.gen l.path)) Q σ') :
    wp M (readL l >>= f) Q σ := by
  rw [wp_bind]
  exact h

theorem wp_create_good (ok : E.OK U) {l : Loc} {b : Bytes} {Q : Bool → World → Prop} {σ : World}
    (hg : Good E U rk σ l.gen l.path b)
    (h : ∀ σ', Le E σ σ' → Inv E U rk σ' → (σ' l.gen l.path).isSome → Q true σ') :
    wp (mode E U rk T) (createL l b) Q σ := by
  refine wp_createL (fun σ' hr hi hs => h σ' hr hi hs) ?_
  intro σ' hr hi hn
  have hle : Le E σ' (σ'.set l (some b)) := le_set hn
  have hi' : Inv E U rk (σ'.set l (some b)) := inv_set ok hi hle (hg.mono hr)
  refine ⟨hi', hle, h _ (Le.trans hr hle) hi' ?_⟩
  rw [set_same]; rfl

theorem hash_casOf (x : Bool) (b : Bytes) : E.hash (casOf x) b = E.hashBlob b := by
  cases x <;> rfl

theorem casOf_ne_tree (x : Bool) : casOf x ≠ .tree := by cases x <;> simp [casOf]

theorem storeObj_spec (ok : E.OK U) {σ : World} {g : Nat} {c : Cas} {b : Bytes}
    (hU : U b) (ht : c = .tree → TreeClosed E σ g b) :
    wp (mode E U rk T) (storeObj E g c b)
      (fun r σ' => r = some (E.hash c b) ∧ σ' g (.cas c (E.hash c b)) = some b) σ := by
  unfold storeObj
  refine wp_read_bind ?_
  intro σ1 (h1 : Le E σ σ1) (i1 : Inv E U rk σ1)
  simp only
  cases hv : σ1 g (.cas c (E.hash c b)) with
  | some b' =>
    simp only [Option.isSome_some, if_true, wp_pure]
    exact ⟨trivial, by rw [hv, i1.cas_eq ok hv hU rfl]⟩
  | none =>
    simp only [Option.isSome_none, Bool.false_eq_true, if_false]
    refine wp_seq (Q' := fun r σ' => r = true ∧ σ' g (.cas c (E.hash c b)) = some b) i1 ?_ ?_
    · refine wp_create_good ok ?_ ?_
      · exact ⟨hU, rfl, fun hc => (ht hc).mono h1⟩
      · intro σ2 h2 i2 hs
        obtain ⟨b', hb'⟩ := Option.isSome_iff_exists.1 hs
        simp only at hb'
        exact ⟨rfl, by rw [hb', i2.cas_eq ok hb' hU rfl]⟩
    · rintro r σ2 h2 i2 ⟨rfl, hb⟩
      simp only [if_true, wp_pure]
      exact ⟨trivial, hb⟩

theorem trySync_spec (ok : E.OK U) {σ : World} {g : Nat} {d : Id} {x : Bool} :
    wp (mode E U rk T) (trySync E g d x)
      (fun r σ' => (∀ b, r = some b → σ' g (.cas (casOf x) d) = some b) ∧
        (∀ b, σ g (.cas (casOf !x) d) = some b → r = some b)) σ := by
  unfold trySync blobNoSync
  refine wp_read_bind ?_
  intro σ1 (h1 : Le E σ σ1) (i1 : Inv E U rk σ1)
  simp only
  cases hv : σ1 g (.cas (casOf !x) d) with
  | none =>
    simp only [wp_pure]
    refine ⟨by simp, fun b hb => ?_⟩
    rw [h1.cas _ _ _ _ hb] at hv
    cases hv
  | some b =>
    simp only
    obtain ⟨hU, hd⟩ := i1.cas _ _ _ _ hv
    rw [hash_casOf] at hd
    refine wp_seq i1 (storeObj_spec ok hU (fun h => absurd h (casOf_ne_tree x))) ?_
    rintro r σ2 (h2 : Le E σ1 σ2) i2 ⟨rfl, hb⟩
    simp only [Option.isSome_some, if_true]
    rw [hash_casOf, hd] at hb
    refine wp_readL ?_
    intro σ3 (h3 : Le E σ2 σ3) i3
    have hb3 := h3.cas _ _ _ _ hb
    simp only [World.at, hb3]
    refine ⟨by simp, fun b' hb' => ?_⟩
    have := (Le.trans h1 (Le.refl E σ1)).cas _ _ _ _ hb'
    rw [hv] at this
    exact this

theorem blobPath_spec (ok : E.OK U) {σ : World} {g : Nat} {d : Id} {x : Bool} :
    wp (mode E U rk T) (blobPath E g d x)
      (fun r σ' => (∀ b, r = some b → σ' g (.cas (casOf x) d) = some b) ∧
        (∀ b, (σ g (.cas .file d) = some b ∨ σ g (.cas .exec d) = some b) → r = some b)) σ := by
  unfold blobPath blobNoSync
  refine wp_read_bind ?_
  intro σ1 (h1 : Le E σ σ1) (i1 : Inv E U rk σ1)
  simp only
  cases hv : σ1 g (.cas (casOf x) d) with
  | some b =>
    simp only [wp_pure]
    refine ⟨?_, ?_⟩
    · rintro b' h; cases h; exact hv
    · intro b' hb'
      obtain ⟨hU, hd⟩ := i1.cas _ _ _ _ hv
      have : U b' ∧ E.hashBlob b' = d := by
        rcases hb' with h | h
        · exact i1.cas _ _ _ _ (h1.cas _ _ _ _ h)
        · exact i1.cas _ _ _ _ (h1.cas _ _ _ _ h)
      rw [hash_casOf] at hd
      rw [ok.injBlob b b' hU this.1 (hd.trans this.2.symm)]
  | none =>
    simp only
    refine wp_post i1 (trySync_spec ok) ?_
    rintro r σ2 (h2 : Le E σ1 σ2) i2 ⟨h3, h4⟩
    refine ⟨h3, fun b hb => h4 b ?_⟩
    cases x with
    | false =>
      rcases hb with h | h
      · have := h1.cas _ _ _ _ h
        simp only [casOf, Bool.false_eq_true, if_false] at hv
        rw [hv] at this; cases this
      · exact h1.cas _ _ _ _ h
    | true =>
      rcases hb with h | h
      · exact h1.cas _ _ _ _ h
      · have := h1.cas _ _ _ _ h
        simp only [casOf, if_true] at hv
        rw [hv] at this; cases this

theorem large_isSome {σ σ' : World} (hi : Inv E U rk σ) (h : Le E σ σ') {g : Nat} {t : Bool}
    {d : Id} (hs : (σ g (.large t d)).isSome) : (σ' g (.large t d)).isSome := by
  obtain ⟨e, he⟩ := Option.isSome_iff_exists.1 hs
  obtain ⟨b, hb⟩ := hi.large _ _ _ _ he
  obtain ⟨e', h', -⟩ := h.large _ _ _ _ _ he hb.2.2.1
  rw [h']; rfl

theorem readEntry_spec {σ : World} (hi : Inv E U rk σ) {g : Nat} {t : Bool} {d : Id} :
    wp (mode E U rk T) (readEntry E g t d)
      (fun r σ' => (∀ ps, r = some ps → ∃ e b, σ' g (.large t d) = some e ∧
          LargeGood E U σ' g t d e b ∧ ps = (E.chunks b).map E.hashBlob) ∧
        ((σ g (.large t d)).isSome → r.isSome)) σ := by
  unfold readEntry
  refine wp_read_bind ?_
  intro σ1 (h1 : Le E σ σ1) (i1 : Inv E U rk σ1)
  simp only
  cases hv : σ1 g (.large t d) with
  | none =>
    simp only [wp_pure]
    refine ⟨by simp, fun hs => ?_⟩
    have := large_isSome hi h1 hs
    rw [hv] at this
    exact this
  | some e =>
    obtain ⟨b, hb⟩ := i1.large _ _ _ _ hv
    simp only [wp_pure]
    rw [hb.2.2.1]
    refine ⟨?_, fun _ => rfl⟩
    rintro ps h
    cases h
    exact ⟨e, b, hv, hb, rfl⟩

theorem spliceParts_spec (ok : E.OK U) {g : Nat} (cs : List Bytes) {σ : World}
    (hi : Inv E U rk σ) (h : ∀ c ∈ cs, σ g (.cas .file (E.hashBlob c)) = some c) :
    wp (mode E U rk T) (spliceParts E g (cs.map E.hashBlob))
      (fun r _ => r = some cs.flatten) σ := by
  induction cs generalizing σ with
  | nil => exact rfl
  | cons c cs ih =>
    simp only [List.map_cons, spliceParts]
    refine wp_seq hi (blobPath_spec ok) ?_
    rintro r σ1 (h1 : Le E σ σ1) i1 ⟨-, h2⟩
    rw [h2 c (Or.inl (h c (by simp)))]
    simp only
    refine wp_seq i1 (ih i1 (fun c' hc' => h1.cas _ _ _ _ (h c' (List.mem_cons_of_mem _ hc')))) ?_
    rintro r' σ2 h2 i2 rfl
    simp only [wp_pure, List.flatten_cons]

theorem trySplice_spec (ok : E.OK U) {g : Nat} {t : Bool} {d : Id} {σ : World}
    (hi : Inv E U rk σ) :
    wp (mode E U rk T) (trySplice E g t d)
      (fun r σ' => (∀ b, r = some b → LargeAt E σ' g t d b) ∧
        ((σ g (.large t d)).isSome → r.isSome)) σ := by
  unfold trySplice
  refine wp_seq hi (readEntry_spec hi) ?_
  rintro r σ1 (h1 : Le E σ σ1) i1 ⟨h2, h3⟩
  cases r with
  | none =>
    simp only [wp_pure]
    exact ⟨by simp, h3⟩
  | some ps =>
    simp only
    obtain ⟨e, b, he, hb, rfl⟩ := h2 ps rfl
    refine wp_post i1 (spliceParts_spec ok _ i1 hb.2.2.2.2) ?_
    rintro r σ2 (h2 : Le E σ1 σ2) i2 rfl
    rw [ok.chunks_flatten]
    refine ⟨?_, fun _ => rfl⟩
    rintro b' h; cases h
    exact (hb.largeAt ok he).mono h2

/-- Uplinking a blob that is there as plain file. -/
theorem uplinkBlob_direct (ok : E.OK U) {g : Nat} {p : Id} {c : Bytes} {s : Bool} {σ : World}
    {fuel : Nat} (hT : T ∨ 1 ≤ fuel) (h : σ g (.cas .file p) = some c) :
    wp (mode E U rk T) (uplinkBlob E fuel g p false true s)
      (fun r σ' => r = true ∧ σ' 0 (.cas .file p) = some c) σ := by
  cases fuel with
  | zero =>
    rcases hT with hT | hT
    · exact hT
    · omega
  | succ fuel =>
    unfold uplinkBlob blobNoSync
    refine wp_read_bind ?_
    intro σ1 (h1 : Le E σ σ1) (i1 : Inv E U rk σ1)
    simp only [casOf, Bool.false_eq_true, if_false]
    have hc1 := h1.cas _ _ _ _ h
    obtain ⟨hU, hd⟩ := i1.cas _ _ _ _ hc1
    cases hv : σ1 0 (.cas .file p) with
    | some b' =>
      simp only [Option.isSome_some, if_true, wp_pure]
      exact ⟨trivial, by rw [hv, i1.cas_eq ok hv hU hd]⟩
    | none =>
      simp only [Option.isSome_none, Bool.false_eq_true, if_false]
      refine wp_read_bind ?_
      intro σ2 (h2 : Le E σ1 σ2) (i2 : Inv E U rk σ2)
      have hc2 := h2.cas _ _ _ _ hc1
      simp only [hc2, uplinkFound, casOf, Bool.false_eq_true, if_false]
      refine wp_seq i2 (storeObj_spec ok hU (by simp)) ?_
      rintro r σ3 h3 i3 ⟨rfl, hb⟩
      simp only [wp_pure, Option.isSome_some]
      refine ⟨trivial, ?_⟩
      have : E.hash .file c = p := hd
      rw [← this]; exact hb

theorem uplinkLarge_spec (ok : E.OK U) {g : Nat} {t : Bool} {d : Id} {σ : World} {fuel : Nat}
    (hi : Inv E U rk σ) (hT : T ∨ 1 ≤ fuel)
    (ht : t = true → ∃ b, U b ∧ E.hashTree b = d ∧ TreeClosed E σ 0 b) :
    wp (mode E U rk T) (uplinkLarge E fuel g t d)
      (fun r σ' => r = true ∧ ((σ g (.large t d)).isSome → (σ' 0 (.large t d)).isSome)) σ := by
  unfold uplinkLarge uplinkLargeWith
  refine wp_read_bind ?_
  intro σ1 (h1 : Le E σ σ1) (i1 : Inv E U rk σ1)
  simp only
  cases hv : σ1 0 (.large t d) with
  | some e0 =>
    simp only [Option.isSome_some, if_true, wp_pure]
    exact ⟨trivial, fun _ => by rw [hv]; rfl⟩
  | none =>
    simp only [Option.isSome_none, Bool.false_eq_true, if_false]
    refine wp_seq i1 (readEntry_spec i1) ?_
    rintro r σ2 (h2 : Le E σ1 σ2) i2 ⟨h3, h4⟩
    cases r with
    | none =>
      simp only [wp_pure]
      refine ⟨trivial, fun hs => ?_⟩
      have := h4 (large_isSome hi h1 hs)
      simp at this
    | some ps =>
      simp only
      obtain ⟨e, b, he, hb, rfl⟩ := h3 ps rfl
      refine wp_seq i2 (wp_forAll
        (fun p σ' => ∀ c ∈ E.chunks b, E.hashBlob c = p → σ' 0 (.cas .file p) = some c) True
        ?_ _ σ2 i2 ?_) ?_
      · intro p σa σb hab _ hp c hc hcp
        exact hab.cas _ _ _ _ (hp c hc hcp)
      · intro p hp σ' (hσ' : Le E σ2 σ') iσ'
        obtain ⟨c, hc, rfl⟩ := List.mem_map.1 hp
        refine wp_mono _ ?_ _
          (uplinkBlob_direct ok hT (hσ'.cas _ _ _ _ (hb.2.2.2.2 c hc)))
        rintro r σ'' ⟨rfl, hq⟩
        refine ⟨fun _ c' hc' he' => ?_, fun _ => rfl⟩
        rw [ok.injBlob c' c (ok.chunks_mem b c' hb.1 hc') (ok.chunks_mem b c hb.1 hc) he']
        exact hq
      · rintro r σ3 (h3' : Le E σ2 σ3) i3 ⟨hq1, hq2⟩
        have := hq2 trivial
        subst this
        simp only [if_true]
        have hq := hq1 rfl
        refine wp_read_bind ?_
        intro σ4 (h4' : Le E σ3 σ4) (i4 : Inv E U rk σ4)
        obtain ⟨e4, he4, hp4⟩ := (Le.trans h3' h4').large _ _ _ _ _ he hb.2.2.1
        simp only [he4]
        refine wp_create_good ok ?_ ?_
        · refine ⟨b, ⟨hb.1, hb.2.1, hp4, hb.2.2.2.1, fun c hc => ?_⟩, ?_⟩
          · exact h4'.cas _ _ _ _ (hq _ (List.mem_map_of_mem hc) c hc rfl)
          · intro htt
            obtain ⟨b', hU', hd', hcl⟩ := ht htt
            subst htt
            have : b = b' := ok.injTree b b' hb.1 hU' (hb.2.1.trans hd'.symm)
            rw [this]
            exact hcl.mono (Le.trans h1 (Le.trans h2 (Le.trans h3' h4')))
        · intro σ5 h5 i5 hs
          exact ⟨rfl, fun _ => hs⟩

/-- Uplinking a blob: `LocalUplinkBlob`. -/
theorem uplinkBlob_spec (ok : E.OK U) {g : Nat} {d : Id} {x skip s : Bool} {σ : World}
    {fuel : Nat} (hi : Inv E U rk σ) (hT : T ∨ 2 ≤ fuel) :
    wp (mode E U rk T) (uplinkBlob E fuel g d x skip s)
      (fun r σ' => (r = true → (∃ b, BlobAt E σ' 0 d b) ∧
          (s = true → (σ' 0 (.cas (casOf x) d)).isSome)) ∧
        ((((σ g (.cas (casOf x) d)).isSome ∨ (σ g (.large false d)).isSome) ∨
          (skip = false ∧ ∃ b, BlobAt E σ g d b)) → r = true)) σ := by
  cases fuel with
  | zero =>
    rcases hT with hT | hT
    · exact hT
    · omega
  | succ fuel =>
    have hplain : ∀ σ' : World, (σ' 0 (.cas (casOf x) d)).isSome → ∃ b, BlobAt E σ' 0 d b := by
      intro σ' hs
      obtain ⟨b, hb⟩ := Option.isSome_iff_exists.1 hs
      cases x with
      | false => exact ⟨b, Or.inl hb⟩
      | true => exact ⟨b, Or.inr (Or.inl hb)⟩
    unfold uplinkBlob
    refine wp_seq hi (wp_readL (Q := fun r σ' => r = σ' 0 (.cas (casOf x) d)) (fun _ _ _ => rfl)) ?_
    rintro r σ1 (h1 : Le E σ σ1) (i1 : Inv E U rk σ1) rfl
    cases hv : σ1 0 (.cas (casOf x) d) with
    | some b' =>
      simp only [Option.isSome_some, if_true, wp_pure]
      have hs : (σ1 0 (.cas (casOf x) d)).isSome := by rw [hv]; rfl
      exact ⟨fun _ => ⟨hplain σ1 hs, fun _ => hs⟩, fun _ => trivial⟩
    | none =>
      simp only [Option.isSome_none, Bool.false_eq_true, if_false]
      -- looking for the blob in the given generation
      refine wp_seq (M := mode E U rk T) (Q' := fun r σ' => (∀ b, r = some b → σ' g (.cas (casOf x) d) = some b) ∧
          (∀ b, (σ g (.cas (casOf x) d) = some b ∨ (skip = false ∧
            (σ g (.cas .file d) = some b ∨ σ g (.cas .exec d) = some b))) → r.isSome)) i1 ?_ ?_
      · unfold findBlob
        cases skip with
        | true =>
          simp only [if_true]
          refine wp_readL ?_
          intro σ2 (h2 : Le E σ1 σ2) i2
          refine ⟨fun b hb => hb, ?_⟩
          rintro b (hb | ⟨h, -⟩)
          · simp only [World.at, (Le.trans h1 h2).cas _ _ _ _ hb, Option.isSome_some]
          · cases h
        | false =>
          simp only [Bool.false_eq_true, if_false]
          refine wp_post i1 (blobPath_spec ok) ?_
          rintro r σ2 (h2 : Le E σ1 σ2) i2 ⟨h3, h4⟩
          refine ⟨h3, ?_⟩
          rintro b (hb | ⟨-, hb⟩)
          · have := h1.cas _ _ _ _ hb
            rw [h4 b (by cases x; exact Or.inl this; exact Or.inr this)]
            rfl
          · rw [h4 b (by
              rcases hb with hb | hb
              · exact Or.inl (h1.cas _ _ _ _ hb)
              · exact Or.inr (h1.cas _ _ _ _ hb))]
            rfl
      · rintro r σ2 (h2 : Le E σ1 σ2) (i2 : Inv E U rk σ2) ⟨h3, h4⟩
        cases r with
        | some b =>
          simp only [uplinkFound, Bool.false_eq_true, if_false]
          have hb := h3 b rfl
          obtain ⟨hU, hd⟩ := i2.cas _ _ _ _ hb
          refine wp_seq i2 (storeObj_spec ok hU (fun h => absurd h (casOf_ne_tree x))) ?_
          rintro r σ3 h3 i3 ⟨rfl, hb3⟩
          rw [hd] at hb3
          simp only [wp_pure, Option.isSome_some]
          have hs : (σ3 0 (.cas (casOf x) d)).isSome := by rw [hb3]; rfl
          exact ⟨fun _ => ⟨hplain σ3 hs, fun _ => hs⟩, fun _ => trivial⟩
        | none =>
          simp only
          refine wp_seq i2 (trySplice_spec ok i2) ?_
          rintro r σ3 (h5 : Le E σ2 σ3) (i3 : Inv E U rk σ3) ⟨h6, h7⟩
          cases r with
          | none =>
            simp only [wp_pure]
            refine ⟨by simp, fun hh => ?_⟩
            exfalso
            have nolarge : ¬ (σ g (.large false d)).isSome := by
              intro hs
              have := h7 (large_isSome i1 h2 (large_isSome hi h1 hs))
              simp at this
            rcases hh with (hh | hh) | ⟨hsk, b, hh⟩
            · obtain ⟨b, hb⟩ := Option.isSome_iff_exists.1 hh
              have := h4 b (Or.inl hb)
              simp at this
            · exact nolarge hh
            · rcases hh with hh | hh | hh
              · have := h4 b (Or.inr ⟨hsk, Or.inl hh⟩)
                simp at this
              · have := h4 b (Or.inr ⟨hsk, Or.inr hh⟩)
                simp at this
              · obtain ⟨e, _, _, he, -⟩ := hh
                exact nolarge (by rw [he]; rfl)
          | some b =>
            have hl := h6 b rfl
            obtain ⟨hU, hd⟩ := i3.largeAt ok hl
            have hs3 : (σ3 g (.large false d)).isSome := by
              obtain ⟨e, _, _, he, -⟩ := hl
              rw [he]; rfl
            simp only [uplinkFound, if_true]
            refine wp_seq i3 (uplinkLarge_spec (t := false) ok i3
              (by rcases hT with h | h; exact Or.inl h; exact Or.inr (by omega)) (by simp)) ?_
            rintro r σ4 (h8 : Le E σ3 σ4) (i4 : Inv E U rk σ4) ⟨-, h9⟩
            have hlarge : ∀ σ' : World, Inv E U rk σ' → (σ' 0 (.large false d)).isSome →
                ∃ b, BlobAt E σ' 0 d b := by
              intro σ' iσ' hs
              obtain ⟨e, he⟩ := Option.isSome_iff_exists.1 hs
              obtain ⟨b, hb⟩ := iσ'.large _ _ _ _ he
              exact ⟨b, Or.inr (Or.inr (hb.largeAt ok he))⟩
            cases s with
            | false =>
              simp only [Bool.false_eq_true, if_false, wp_pure]
              exact ⟨fun _ => ⟨hlarge σ4 i4 (h9 hs3), by simp⟩, fun _ => trivial⟩
            | true =>
              simp only [if_true]
              refine wp_seq i4 (storeObj_spec ok hU (fun h => absurd h (casOf_ne_tree x))) ?_
              rintro r σ5 h10 i5 ⟨rfl, hb5⟩
              rw [hash_casOf] at hb5
              simp only [Env.hashL] at hd
              rw [hd] at hb5
              simp only [wp_pure, Option.isSome_some]
              have hs : (σ5 0 (.cas (casOf x) d)).isSome := by rw [hb5]; rfl
              exact ⟨fun _ => ⟨hplain σ5 hs, fun _ => hs⟩, fun _ => trivial⟩

theorem le_replace_large (ok : E.OK U) {σ : World} (hi : Inv E U rk σ) {t : Bool} {d : Id}
    {b : Bytes} (hU : U b) (hd : E.hashL t b = d) :
    Le E σ (σ.set ⟨0, .large t d⟩ (some (E.dumpParts ((E.chunks b).map E.hashBlob)))) := by
  have key : ∀ g p, p ≠ .large t d →
      σ.set ⟨0, .large t d⟩ (some (E.dumpParts ((E.chunks b).map E.hashBlob))) g p = σ g p := by
    intro g p hp
    rw [set_other]
    rintro ⟨-, h⟩
    exact hp h
  refine ⟨fun g c d' b' h => ?_, fun g t' d' e ps he hp => ?_, fun g k e _ h => ?_, fun g k h => ?_,
    fun g k e _ h => ?_, fun g k h => ?_⟩
  · rw [key _ _ (by simp)]; exact h
  · by_cases heq : g = 0 ∧ Path.large t' d' = .large t d
    · obtain ⟨rfl, heq⟩ := heq
      cases heq
      rw [set_same]
      refine ⟨_, rfl, ?_⟩
      rw [ok.parts_dump]
      obtain ⟨b', hb'⟩ := hi.large _ _ _ _ he
      have hbb : b' = b := hashL_inj ok hb'.1 hU (hb'.2.1.trans hd.symm)
      subst hbb
      rw [← hb'.2.2.1, hp]
    · rw [set_other heq]
      exact ⟨e, he, hp⟩
  · rw [key _ _ (by simp)]; exact h
  · rw [key _ _ (by simp)]; exact h
  · rw [key _ _ (by simp)]; exact h
  · rw [key _ _ (by simp)]; exact h

end Verif.Storage
