import Verif.Storage.Local

/-!
# Uplinking trees, action-cache entries and target-cache entries of a single generation
-/

namespace Verif.Storage

open Prog

variable {E : Env} {U : Bytes → Prop} {rk : Ranks E U} {T : Prop}

theorem firstEntries_sub (es : List (Id × Kind)) (seen : List Id) :
    ∀ e ∈ firstEntries seen es, e ∈ es := by
  induction es generalizing seen with
  | nil => simp [firstEntries]
  | cons e es ih =>
    obtain ⟨i, k⟩ := e
    intro e he
    unfold firstEntries at he
    split at he
    · exact List.mem_cons_of_mem _ (ih _ e he)
    · rcases List.mem_cons.1 he with rfl | h
      · simp
      · exact List.mem_cons_of_mem _ (ih _ e h)

theorem firstEntries_cover (es : List (Id × Kind)) (seen : List Id) :
    ∀ e ∈ es, e.1 ∈ seen ∨ ∃ k, (e.1, k) ∈ firstEntries seen es := by
  induction es generalizing seen with
  | nil => simp
  | cons e es ih =>
    obtain ⟨i, k⟩ := e
    intro e he
    unfold firstEntries
    rcases List.mem_cons.1 he with rfl | h
    · by_cases hs : i ∈ seen
      · exact Or.inl hs
      · rw [if_neg hs]
        exact Or.inr ⟨k, by simp⟩
    · by_cases hs : i ∈ seen
      · rw [if_pos hs]
        exact ih seen e h
      · rw [if_neg hs]
        rcases ih (i :: seen) e h with h' | ⟨k', h'⟩
        · rcases List.mem_cons.1 h' with h'' | h''
          · exact Or.inr ⟨k, by rw [h'']; simp⟩
          · exact Or.inl h''
        · exact Or.inr ⟨k', List.mem_cons_of_mem _ h'⟩

theorem has_blob_irrel {σ : World} {g : Nat} {i : Id} {k k' : Kind} (h : k = .tree ↔ k' = .tree)
    (hk : Has E σ g k i) : Has E σ g k' i := by
  cases k with
  | tree => rw [h.1 rfl]; exact hk
  | blob x =>
    cases k' with
    | tree => exact absurd (h.2 rfl) (by simp)
    | blob y => exact hk

/-- If the first entry of each hash is there, all entries are. -/
theorem treeClosed_of_first (ok : E.OK U) {σ : World} {g : Nat} {b : Bytes} (hU : U b)
    {es : List (Id × Kind)} (hp : E.parseTree b = some es)
    (h : ∀ e ∈ firstEntries [] es, Has E σ g e.2 e.1) : TreeClosed E σ g b := by
  refine ⟨es, hp, fun e he => ?_⟩
  rcases firstEntries_cover es [] e he with h' | ⟨k, h'⟩
  · simp at h'
  · exact has_blob_irrel (ok.kinds b es hU hp e.1 k e.2 (firstEntries_sub es [] _ h') he) (h _ h')

theorem uplinkTreeContent_spec (ok : E.OK U) {g : Nat} {d : Id} {s spliced : Bool} {σ : World}
    {b : Bytes} {entry : Id × Kind → Prog Bool} {fuel : Nat} (hi : Inv E U rk σ)
    (hT : T ∨ 1 ≤ fuel) (hU : U b) (hd : E.hashTree b = d) (hcl : TreeClosed E σ g b)
    (hsp : spliced = true → (σ g (.large true d)).isSome)
    (hentry : ∀ es, E.parseTree b = some es → ∀ e ∈ es, ∀ σ', Le E σ σ' → Inv E U rk σ' →
      Has E σ' g e.2 e.1 →
      wp (mode E U rk T) (entry e) (fun r σ'' => (r = true → Has E σ'' 0 e.2 e.1) ∧
        (True → r = true)) σ') :
    wp (mode E U rk T)
      (uplinkTreeContent E entry (uplinkLarge E fuel g true d) s spliced b)
      (fun r σ' => r = true ∧ (∃ b, TreeAt E σ' 0 d b) ∧
        (s = true → (σ' 0 (.cas .tree d)).isSome)) σ := by
  unfold uplinkTreeContent
  obtain ⟨es, hp, hall⟩ := hcl
  simp only [hp]
  refine wp_seq hi (wp_forAll (fun e σ' => Has E σ' 0 e.2 e.1) True ?_ _ σ hi ?_) ?_
  · intro e σa σb hab _ h
    exact Has.mono hab h
  · intro e he σ' hσ' iσ'
    have he' := firstEntries_sub es [] e he
    exact hentry es hp e he' σ' hσ' iσ' ((hall e he').mono hσ')
  · rintro r σ1 (h1 : Le E σ σ1) (i1 : Inv E U rk σ1) ⟨hq1, hq2⟩
    have := hq2 trivial
    subst this
    have hcl0 : TreeClosed E σ1 0 b := treeClosed_of_first ok hU hp (hq1 rfl)
    simp only [if_true]
    unfold uplinkTreeContent.uplinkStore
    have hstore : ∀ σ2, Le E σ1 σ2 → Inv E U rk σ2 →
        wp (mode E U rk T) (do let r ← storeObj E 0 .tree b; pure r.isSome)
          (fun r σ' => r = true ∧ (∃ b, TreeAt E σ' 0 d b) ∧
            (s = true → (σ' 0 (.cas .tree d)).isSome)) σ2 := by
      intro σ2 h2 i2
      refine wp_seq i2 (storeObj_spec ok hU (fun _ => hcl0.mono h2)) ?_
      rintro r σ3 h3 i3 ⟨rfl, hb⟩
      have hd' : E.hash .tree b = d := hd
      rw [hd'] at hb
      simp only [wp_pure, Option.isSome_some]
      exact ⟨trivial, ⟨b, Or.inl hb⟩, fun _ => by rw [hb]; rfl⟩
    cases spliced with
    | false =>
      simp only [Bool.false_eq_true, if_false]
      exact hstore σ1 (Le.refl E σ1) i1
    | true =>
      simp only [if_true]
      refine wp_seq i1 (uplinkLarge_spec ok i1 hT (fun _ => ⟨b, hU, hd, hcl0⟩)) ?_
      rintro r σ2 (h2 : Le E σ1 σ2) (i2 : Inv E U rk σ2) ⟨-, h3⟩
      cases s with
      | true =>
        rw [if_pos rfl]
        exact hstore σ2 h2 i2
      | false =>
        simp only [Bool.false_eq_true, if_false, wp_pure]
        have hs := h3 (large_isSome hi h1 (hsp rfl))
        obtain ⟨e, he⟩ := Option.isSome_iff_exists.1 hs
        obtain ⟨b', hb'⟩ := i2.large _ _ _ _ he
        exact ⟨trivial, ⟨b', Or.inr (hb'.largeAt ok he)⟩, fun h => h.elim⟩

/-- Uplinking a tree: `LocalUplinkGitTree`. -/
theorem uplinkTree_spec (ok : E.OK U) {g : Nat} {d : Id} {s : Bool} {σ : World} {fuel : Nat}
    (hi : Inv E U rk σ) (hT : T ∨ rk.tree d + 2 ≤ fuel) :
    wp (mode E U rk T) (uplinkTree E fuel g d s)
      (fun r σ' => (r = true → (∃ b, TreeAt E σ' 0 d b) ∧
          (s = true → (σ' 0 (.cas .tree d)).isSome)) ∧
        ((∃ b, TreeAt E σ g d b) → r = true)) σ := by
  induction fuel generalizing d s σ with
  | zero =>
    rcases hT with hT | hT
    · exact hT
    · omega
  | succ fuel ih =>
    unfold uplinkTree
    refine wp_read_bind ?_
    intro σ1 (h1 : Le E σ σ1) (i1 : Inv E U rk σ1)
    simp only
    have hcontent : ∀ σ2 b spliced, Le E σ1 σ2 → Inv E U rk σ2 → TreeAt E σ2 g d b →
        (spliced = true → (σ2 g (.large true d)).isSome) →
        wp (mode E U rk T)
          (uplinkTreeContent E (uplinkEntry (fun i => uplinkTree E fuel g i false)
            (fun i x => uplinkBlob E (fuel + 1) g i x false false))
            (uplinkLarge E (fuel + 1) g true d) s spliced b)
          (fun r σ' => (r = true → (∃ b, TreeAt E σ' 0 d b) ∧
            (s = true → (σ' 0 (.cas .tree d)).isSome)) ∧
            ((∃ b, TreeAt E σ g d b) → r = true)) σ2 := by
      intro σ2 b spliced h2 i2 hat hsp
      obtain ⟨hU, hd⟩ := i2.treeAt ok hat
      refine wp_mono _ ?_ _ (uplinkTreeContent_spec ok i2
        (by rcases hT with h | h; exact Or.inl h; exact Or.inr (by omega)) hU hd
        (i2.tree _ _ _ hat) hsp ?_)
      · rintro r σ' ⟨rfl, h3⟩
        exact ⟨fun _ => h3, fun _ => rfl⟩
      · rintro es hp ⟨i, k⟩ he σ' hσ' iσ' hhas
        cases k with
        | tree =>
          simp only [uplinkEntry]
          refine wp_mono _ ?_ _ (ih iσ' ?_)
          · rintro r σ'' ⟨h3, h4⟩
            exact ⟨fun hr => (h3 hr).1, fun _ => h4 hhas⟩
          · rcases hT with h | h
            · exact Or.inl h
            · right
              have := rk.tree_lt b es i hU hp he
              rw [hd] at this
              omega
        | blob x =>
          simp only [uplinkEntry]
          refine wp_mono _ ?_ _ (uplinkBlob_spec ok iσ'
            (by rcases hT with h | h; exact Or.inl h; exact Or.inr (by omega)))
          rintro r σ'' ⟨h3, h4⟩
          exact ⟨fun hr => (h3 hr).1, fun _ => h4 (Or.inr ⟨rfl, hhas⟩)⟩
    cases hv : σ1 0 (.cas .tree d) with
    | some b' =>
      simp only [Option.isSome_some, if_true, wp_pure]
      exact ⟨fun _ => ⟨⟨b', Or.inl hv⟩, fun _ => by rw [hv]; rfl⟩, fun _ => trivial⟩
    | none =>
      simp only [Option.isSome_none, Bool.false_eq_true, if_false]
      refine wp_read_bind ?_
      intro σ2 (h2 : Le E σ1 σ2) (i2 : Inv E U rk σ2)
      simp only
      cases hv2 : σ2 g (.cas .tree d) with
      | some b => exact hcontent σ2 b false h2 i2 (Or.inl hv2) (by simp)
      | none =>
        simp only
        refine wp_seq i2 (trySplice_spec ok i2) ?_
        rintro r σ3 (h3 : Le E σ2 σ3) (i3 : Inv E U rk σ3) ⟨h4, h5⟩
        cases r with
        | none =>
          simp only [wp_pure]
          refine ⟨fun h => absurd h (by simp), ?_⟩
          rintro ⟨b, hb | hb⟩
          · have := (Le.trans h1 h2).cas _ _ _ _ hb
            rw [hv2] at this; cases this
          · obtain ⟨e, _, _, he, -⟩ := hb
            have := h5 (large_isSome hi (Le.trans h1 h2) (by rw [he]; rfl))
            simp at this
        | some b =>
          have hl := h4 b rfl
          refine hcontent σ3 b true (Le.trans h2 h3) i3 (Or.inr hl) (fun _ => ?_)
          obtain ⟨e, _, _, he, -⟩ := hl
          rw [he]; rfl

/-! ### Action cache -/

theorem uplinkOutputs_spec (ok : E.OK U) {g : Nat} {r : Result} {σ : World} {fuel : Nat}
    (hi : Inv E U rk σ) (hT : T ∨ ∀ i, rk.tree i + 2 ≤ fuel) (ho : Outputs E σ g r) :
    wp (mode E U rk T) (uplinkOutputs E fuel g r)
      (fun ok σ' => ok = true ∧ Outputs E σ' 0 r) σ := by
  have hT' : T ∨ 2 ≤ fuel := by
    rcases hT with h | h
    · exact Or.inl h
    · exact Or.inr (by have := h []; omega)
  unfold uplinkOutputs
  refine wp_seq hi (wp_forAll (fun f σ' => ∃ b, BlobAt E σ' 0 f.1 b) True ?_ _ σ hi ?_) ?_
  · rintro f σa σb hab _ ⟨b, hb⟩
    exact ⟨b, hb.mono hab⟩
  · intro f hf σ' (hσ' : Le E σ σ') iσ'
    refine wp_mono _ ?_ _ (uplinkBlob_spec ok iσ' hT')
    rintro q σ'' ⟨h3, h4⟩
    obtain ⟨b, hb⟩ := ho.1 f hf
    exact ⟨fun hr => (h3 hr).1, fun _ => h4 (Or.inr ⟨rfl, b, hb.mono hσ'⟩)⟩
  rintro q σ1 (h1 : Le E σ σ1) (i1 : Inv E U rk σ1) ⟨hf1, hf2⟩
  have := hf2 trivial
  subst this
  simp only [if_true]
  refine wp_seq i1 (wp_forAll (fun t σ' => ∃ b, BlobAt E σ' 0 (E.hashBlob t) b) True ?_ _ σ1 i1 ?_)
    ?_
  · rintro f σa σb hab _ ⟨b, hb⟩
    exact ⟨b, hb.mono hab⟩
  · intro t ht σ' (hσ' : Le E σ1 σ') iσ'
    refine wp_mono _ ?_ _ (uplinkBlob_spec ok iσ' hT')
    rintro q σ'' ⟨h3, h4⟩
    obtain ⟨b, hb⟩ := ho.2.1 t ht
    exact ⟨fun hr => (h3 hr).1, fun _ => h4 (Or.inr ⟨rfl, b, hb.mono (Le.trans h1 hσ')⟩)⟩
  rintro q σ2 (h2 : Le E σ1 σ2) (i2 : Inv E U rk σ2) ⟨hl1, hl2⟩
  have := hl2 trivial
  subst this
  simp only [if_true]
  refine wp_post i2 (wp_forAll (fun d σ' => ∃ b, TreeAt E σ' 0 d b) True ?_ _ σ2 i2 ?_) ?_
  · rintro f σa σb hab _ ⟨b, hb⟩
    exact ⟨b, hb.mono hab⟩
  · intro d hd σ' (hσ' : Le E σ2 σ') iσ'
    refine wp_mono _ ?_ _ (uplinkTree_spec ok iσ'
      (by rcases hT with h | h; exact Or.inl h; exact Or.inr (h d)))
    rintro q σ'' ⟨h3, h4⟩
    obtain ⟨b, hb⟩ := ho.2.2 d hd
    exact ⟨fun hr => (h3 hr).1, fun _ => h4 ⟨b, hb.mono (Le.trans h1 (Le.trans h2 hσ'))⟩⟩
  · rintro q σ3 (h3 : Le E σ2 σ3) (i3 : Inv E U rk σ3) ⟨hd1, hd2⟩
    refine ⟨hd2 trivial, ?_, ?_, hd1 (hd2 trivial)⟩
    · intro f hf
      obtain ⟨b, hb⟩ := hf1 rfl f hf
      exact ⟨b, hb.mono (Le.trans h2 h3)⟩
    · intro t ht
      obtain ⟨b, hb⟩ := hl1 rfl t ht
      exact ⟨b, hb.mono h3⟩

/-- The key of an action is in an old generation, and the result it refers to is there as a plain
file. -/
def ActionDirect (E : Env) (σ : World) (g : Nat) (k : Id) : Prop :=
  ∃ e key b, 0 < g ∧ σ g (.ac k) = some e ∧ E.parseKey e = some key ∧
    (σ g (.cas .file key) = some b ∨ σ g (.cas .exec key) = some b)

theorem ActionDirect.mono {σ σ' : World} (h : Le E σ σ') {g : Nat} {k : Id}
    (hd : ActionDirect E σ g k) : ActionDirect E σ' g k := by
  obtain ⟨e, key, b, h0, h1, h2, h3⟩ := hd
  refine ⟨e, key, b, h0, h.acOld _ _ _ h0 h1, h2, ?_⟩
  rcases h3 with h3 | h3
  · exact Or.inl (h.cas _ _ _ _ h3)
  · exact Or.inr (h.cas _ _ _ _ h3)

theorem uplinkAction_spec (ok : E.OK U) {g : Nat} {k : Id} {σ : World} {fuel : Nat}
    (hT : T ∨ ∀ i, rk.tree i + 2 ≤ fuel) :
    wp (mode E U rk T) (uplinkAction E fuel g k)
      (fun r σ' => (r = true → (σ' 0 (.ac k)).isSome) ∧
        (((σ 0 (.ac k)).isSome ∨ ActionDirect E σ g k) → r = true)) σ := by
  have hT' : T ∨ 2 ≤ fuel := by
    rcases hT with h | h
    · exact Or.inl h
    · exact Or.inr (by have := h []; omega)
  unfold uplinkAction readActionKey
  refine wp_read_bind ?_
  intro σ1 (h1 : Le E σ σ1) (i1 : Inv E U rk σ1)
  simp only
  cases hv : σ1 0 (.ac k) with
  | some c0 =>
    simp only [Option.isSome_some, if_true, wp_pure]
    exact ⟨fun _ => by rw [hv]; rfl, fun _ => trivial⟩
  | none =>
    simp only [Option.isSome_none, Bool.false_eq_true, if_false]
    have hG : ((σ 0 (.ac k)).isSome ∨ ActionDirect E σ g k) → ActionDirect E σ1 g k := by
      rintro (h | h)
      · have := h1.ac _ _ h
        rw [hv] at this
        simp at this
      · exact h.mono h1
    rw [wp_bind]
    refine wp_read_bind ?_
    intro σ2 (h2 : Le E σ1 σ2) (i2 : Inv E U rk σ2)
    simp only
    cases hv2 : σ2 g (.ac k) with
    | none =>
      simp only [wp_pure]
      refine ⟨fun h => absurd h (by simp), fun h => ?_⟩
      obtain ⟨e, _, _, _, he, -⟩ := (hG h).mono h2
      rw [hv2] at he; cases he
    | some e =>
      obtain ⟨key, b0, r0, hk, hb0, hp0, ho⟩ := i2.action _ _ _ hv2
      simp only [wp_pure, hk]
      unfold readAction
      rw [wp_bind]
      refine wp_seq i2 (blobPath_spec ok) ?_
      rintro rb σ3 (h3 : Le E σ2 σ3) (i3 : Inv E U rk σ3) ⟨h4, h5⟩
      cases rb with
      | none =>
        simp only [wp_pure]
        refine ⟨fun h => absurd h (by simp), fun h => ?_⟩
        obtain ⟨e', key', b', h0, he, hk', hb'⟩ := (hG h).mono h2
        rw [hv2] at he
        cases he
        rw [hk] at hk'
        cases hk'
        have := h5 b' hb'
        cases this
      | some b =>
        have hb := h4 b rfl
        obtain ⟨hU, hd⟩ := i3.cas _ _ _ _ hb
        obtain ⟨hU0, hd0⟩ := i2.blobAt ok hb0
        have hbb : b = b0 := ok.injBlob b b0 hU hU0 (hd.trans hd0.symm)
        subst hbb
        simp only [wp_pure, hp0]
        refine wp_seq i3 (uplinkOutputs_spec ok i3 hT (ho.mono h3)) ?_
        rintro q σ4 (h6 : Le E σ3 σ4) (i4 : Inv E U rk σ4) ⟨rfl, ho4⟩
        simp only [if_true]
        refine wp_seq i4 (uplinkBlob_spec ok i4 hT') ?_
        rintro q σ5 (h7 : Le E σ4 σ5) (i5 : Inv E U rk σ5) ⟨h8, h9⟩
        have hq := h9 (Or.inr ⟨rfl, b, hb0.mono (Le.trans h3 h6)⟩)
        subst hq
        obtain ⟨⟨b5, hb5⟩, -⟩ := h8 rfl
        obtain ⟨hU5, hd5⟩ := i5.blobAt ok hb5
        have : b5 = b := ok.injBlob b5 b hU5 hU (hd5.trans hd.symm)
        subst this
        simp only [if_true]
        refine wp_read_bind ?_
        intro σ6 (h10 : Le E σ5 σ6) (i6 : Inv E U rk σ6)
        simp only
        have hs6 : (σ6 g (.ac k)).isSome :=
          (Le.trans h3 (Le.trans h6 (Le.trans h7 h10))).ac _ _ (by rw [hv2]; rfl)
        obtain ⟨c, hc⟩ := Option.isSome_iff_exists.1 hs6
        simp only [hc]
        refine wp_create_good ok ?_ ?_
        · show ActionGood E σ6 0 c
          by_cases hg : g = 0
          · subst hg
            exact i6.action _ _ _ hc
          · have := (Le.trans h3 (Le.trans h6 (Le.trans h7 h10))).acOld _ _ _ (by omega) hv2
            rw [hc] at this
            cases this
            exact ⟨key, b5, r0, hk, hb5.mono h10, hp0, ho4.mono (Le.trans h7 h10)⟩
        · intro σ7 h11 i7 hs
          exact ⟨fun _ => hs, fun _ => rfl⟩

/-! ### Target cache -/

/-- The target-cache entry for a key is in the generation, with the entry itself and those of all
implied export targets as plain files. -/
inductive TargetDirect (E : Env) (σ : World) (g : Nat) : Id → Prop where
  | mk {k : Id} {c : Bytes} {i : Id} {b : Bytes} {en : Entry} :
      0 < g → σ g (.tc k) = some c → E.parseInfo c = some i →
      (σ g (.cas .file i) = some b ∨ σ g (.cas .exec i) = some b) → E.parseEntry b = some en →
      (∀ j ∈ en.implied, j ≠ k → TargetDirect E σ g j) → TargetDirect E σ g k

theorem TargetDirect.mono {σ σ' : World} (h : Le E σ σ') {g : Nat} {k : Id}
    (hd : TargetDirect E σ g k) : TargetDirect E σ' g k := by
  induction hd with
  | mk h0 h1 h2 h3 h4 _ ih =>
    refine TargetDirect.mk h0 (h.tcOld _ _ _ h0 h1) h2 ?_ h4 ih
    rcases h3 with h3 | h3
    · exact Or.inl (h.cas _ _ _ _ h3)
    · exact Or.inr (h.cas _ _ _ _ h3)

theorem uplinkArtifacts_spec (ok : E.OK U) {g : Nat} {as : List (Id × Kind)} {σ : World}
    {fuel : Nat} (hi : Inv E U rk σ) (hT : T ∨ ∀ i, rk.tree i + 2 ≤ fuel)
    (ha : ∀ a ∈ as, Has E σ g a.2 a.1) :
    wp (mode E U rk T) (uplinkArtifacts E fuel g as)
      (fun r σ' => r = true ∧ ∀ a ∈ as, Has E σ' 0 a.2 a.1) σ := by
  unfold uplinkArtifacts
  refine wp_mono _ ?_ _ (wp_forAll (fun e σ' => Has E σ' 0 e.2 e.1) True ?_ _ σ hi ?_)
  · rintro r σ' ⟨h1, h2⟩
    exact ⟨h2 trivial, h1 (h2 trivial)⟩
  · intro e σa σb hab _ h
    exact Has.mono hab h
  · rintro ⟨i, k⟩ he σ' (hσ' : Le E σ σ') iσ'
    have hhas := (ha _ he).mono hσ'
    cases k with
    | tree =>
      simp only [uplinkEntry]
      refine wp_mono _ ?_ _ (uplinkTree_spec ok iσ'
        (by rcases hT with h | h; exact Or.inl h; exact Or.inr (h i)))
      rintro q σ'' ⟨h3, h4⟩
      exact ⟨fun hr => (h3 hr).1, fun _ => h4 hhas⟩
    | blob x =>
      simp only [uplinkEntry]
      refine wp_mono _ ?_ _ (uplinkBlob_spec ok iσ'
        (by rcases hT with h | h; exact Or.inl h; exact Or.inr (by have := h i; omega)))
      rintro q σ'' ⟨h3, h4⟩
      exact ⟨fun hr => (h3 hr).1, fun _ => h4 (Or.inr ⟨rfl, hhas⟩)⟩

theorem uplinkTarget_spec (ok : E.OK U) {g : Nat} {k : Id} {σ : World} {fuel n : Nat}
    (hT : T ∨ ∀ i, rk.tree i + 2 ≤ fuel) (hN : T ∨ rk.target k + 1 ≤ n) :
    wp (mode E U rk T) (uplinkTarget E fuel n g k)
      (fun r σ' => (r = true → (σ' 0 (.tc k)).isSome) ∧
        (((σ 0 (.tc k)).isSome ∨ TargetDirect E σ g k) → r = true)) σ := by
  have hT' : T ∨ 2 ≤ fuel := by
    rcases hT with h | h
    · exact Or.inl h
    · exact Or.inr (by have := h []; omega)
  induction n generalizing k σ with
  | zero =>
    rcases hN with hN | hN
    · exact hN
    · omega
  | succ n ih =>
    unfold uplinkTarget
    refine wp_read_bind ?_
    intro σ1 (h1 : Le E σ σ1) (i1 : Inv E U rk σ1)
    simp only
    cases hv : σ1 0 (.tc k) with
    | some c0 =>
      simp only [Option.isSome_some, if_true, wp_pure]
      exact ⟨fun _ => by rw [hv]; rfl, fun _ => trivial⟩
    | none =>
      simp only [Option.isSome_none, Bool.false_eq_true, if_false]
      have hG : ((σ 0 (.tc k)).isSome ∨ TargetDirect E σ g k) → TargetDirect E σ1 g k := by
        rintro (h | h)
        · have := h1.tc _ _ h
          rw [hv] at this
          simp at this
        · exact h.mono h1
      refine wp_read_bind ?_
      intro σ2 (h2 : Le E σ1 σ2) (i2 : Inv E U rk σ2)
      simp only
      cases hv2 : σ2 g (.tc k) with
      | none =>
        simp only [wp_pure]
        refine ⟨fun h => absurd h (by simp), fun h => ?_⟩
        cases (hG h).mono h2 with
        | mk _ he => rw [hv2] at he; cases he
      | some c =>
        obtain ⟨i, b0, en, as, hk, hb0, hp0, has, ha, himp⟩ := i2.target _ _ _ hv2
        simp only [hk]
        refine wp_seq i2 (blobPath_spec ok) ?_
        rintro rb σ3 (h3 : Le E σ2 σ3) (i3 : Inv E U rk σ3) ⟨h4, h5⟩
        cases rb with
        | none =>
          simp only [wp_pure]
          refine ⟨fun h => absurd h (by simp), fun h => ?_⟩
          cases (hG h).mono h2 with
          | mk _ he hk' hb' =>
            rw [hv2] at he
            cases he
            rw [hk] at hk'
            cases hk'
            have := h5 _ hb'
            cases this
        | some b =>
          have hb := h4 b rfl
          obtain ⟨hU, hd⟩ := i3.cas _ _ _ _ hb
          obtain ⟨hU0, hd0⟩ := i2.blobAt ok hb0
          have hbb : b = b0 := ok.injBlob b b0 hU hU0 (hd.trans hd0.symm)
          subst hbb
          simp only [hp0]
          have hdirect : ∀ σ', Le E σ3 σ' → ((σ 0 (.tc k)).isSome ∨ TargetDirect E σ g k) →
              ∀ j ∈ en.implied, j ≠ k → TargetDirect E σ' g j := by
            intro σ' hσ' h j hj hjk
            cases (hG h).mono h2 with
            | mk _ he hk' hb' hen' hall =>
              rw [hv2] at he
              cases he
              rw [hk] at hk'
              cases hk'
              have hbe := h5 _ hb'
              cases hbe
              rw [hp0] at hen'
              cases hen'
              exact (hall j hj hjk).mono (Le.trans h3 hσ')
          refine wp_seq i3 (wp_forAll
            (fun j σ' => j ≠ k → (σ' 0 (.tc j)).isSome)
            ((σ 0 (.tc k)).isSome ∨ TargetDirect E σ g k) ?_ _ σ3 i3 ?_) ?_
          · intro j σa σb (hab : Le E σa σb) _ h hjk
            exact hab.tc _ _ (h hjk)
          · intro j hj σ' (hσ' : Le E σ3 σ') iσ'
            by_cases hjk : j = k
            · simp only [hjk, ne_eq, not_true, if_false, wp_pure]
              exact ⟨fun _ h => h.elim, fun _ => trivial⟩
            · simp only [ne_eq, hjk, not_false_iff, if_true]
              refine wp_mono _ ?_ _ (ih ?_)
              · rintro r σ'' ⟨h6, h7⟩
                exact ⟨fun hr _ => h6 hr, fun h => h7 (Or.inr (hdirect σ' hσ' h j hj hjk))⟩
              · rcases hN with h | h
                · exact Or.inl h
                · rcases himp j hj with rfl | ⟨-, hlt⟩
                  · exact absurd rfl hjk
                  · exact Or.inr (by omega)
          · rintro q σ4 (h6 : Le E σ3 σ4) (i4 : Inv E U rk σ4) ⟨h7, h8⟩
            cases q with
            | false =>
              simp only [Bool.false_eq_true, if_false, wp_pure]
              exact ⟨fun h => h.elim, fun h => by simpa using h8 h⟩
            | true =>
              simp only [if_true, has]
              have himp4 := h7 rfl
              refine wp_seq i4 (uplinkArtifacts_spec ok i4 hT
                (fun a h => (ha a h).mono (Le.trans h3 h6))) ?_
              rintro q σ5 (h9 : Le E σ4 σ5) (i5 : Inv E U rk σ5) ⟨rfl, ha5⟩
              simp only [if_true]
              refine wp_seq i5 (uplinkBlob_spec ok i5 hT') ?_
              rintro q σ6 (h10 : Le E σ5 σ6) (i6 : Inv E U rk σ6) ⟨h11, h12⟩
              have hq := h12 (Or.inr ⟨rfl, b, hb0.mono (Le.trans h3 (Le.trans h6 h9))⟩)
              subst hq
              obtain ⟨⟨b6, hb6⟩, -⟩ := h11 rfl
              obtain ⟨hU6, hd6⟩ := i6.blobAt ok hb6
              have : b6 = b := ok.injBlob b6 b hU6 hU (hd6.trans hd.symm)
              subst this
              simp only [if_true]
              refine wp_create_good ok ?_ ?_
              · show TargetGood E U rk σ6 0 k c
                refine ⟨i, b6, en, as, hk, hb6, hp0, has, fun a h => (ha5 a h).mono h10, ?_⟩
                intro j hj
                rcases himp j hj with rfl | ⟨-, hlt⟩
                · exact Or.inl rfl
                · by_cases hjk : j = k
                  · exact Or.inl hjk
                  · exact Or.inr ⟨(Le.trans h9 h10).tc _ _ (himp4 j hj hjk), hlt⟩
              · intro σ7 h11 i7 hs
                exact ⟨fun _ => hs, fun _ => rfl⟩

end Verif.Storage
