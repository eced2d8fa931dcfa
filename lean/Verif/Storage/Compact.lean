import Verif.Storage.GcModel
import Verif.Storage.Local

/-!
# Compactification keeps everything readable
-/

namespace Verif.Storage

open Prog

variable {E : Env} {U : Bytes → Prop} {rk : Ranks E U} {T : Prop}

/-- Earlier and later storage during compactification. -/
structure CLe (E : Env) (σ σ' : World) : Prop where
  old : ∀ g p, 0 < g → σ' g p = σ g p
  large : ∀ t d e ps, σ 0 (.large t d) = some e → E.parseParts e = some ps →
    ∃ e', σ' 0 (.large t d) = some e' ∧ E.parseParts e' = some ps
  small : ∀ c d b, σ 0 (.cas c d) = some b → (E.chunks b).length < 2 →
    σ' 0 (.cas c d) = some b
  blob : ∀ d b, BlobAt E σ 0 d b → BlobAt E σ' 0 d b
  tree : ∀ d b, TreeAt E σ 0 d b → TreeAt E σ' 0 d b
  ac : ∀ k, σ' 0 (.ac k) = σ 0 (.ac k)
  tc : ∀ k, σ' 0 (.tc k) = σ 0 (.tc k)

theorem CLe.refl (E : Env) (σ : World) : CLe E σ σ :=
  ⟨fun _ _ _ => rfl, fun _ _ e _ h hp => ⟨e, h, hp⟩, fun _ _ _ h _ => h, fun _ _ h => h,
    fun _ _ h => h, fun _ => rfl, fun _ => rfl⟩

theorem CLe.trans {σ σ' σ'' : World} (h : CLe E σ σ') (h' : CLe E σ' σ'') : CLe E σ σ'' where
  old g p hg := (h'.old g p hg).trans (h.old g p hg)
  large t d e ps he hp := by
    obtain ⟨e', h1, h2⟩ := h.large t d e ps he hp
    exact h'.large t d e' ps h1 h2
  small c d b hb hs := h'.small c d b (h.small c d b hb hs) hs
  blob d b hb := h'.blob d b (h.blob d b hb)
  tree d b hb := h'.tree d b (h.tree d b hb)
  ac k := (h'.ac k).trans (h.ac k)
  tc k := (h'.tc k).trans (h.tc k)

theorem blobAt_congr {σ σ' : World} {g : Nat} (h : ∀ p, σ' g p = σ g p) {d : Id} {b : Bytes} :
    BlobAt E σ' g d b ↔ BlobAt E σ g d b := by
  simp only [BlobAt, LargeAt, h]

theorem treeAt_congr {σ σ' : World} {g : Nat} (h : ∀ p, σ' g p = σ g p) {d : Id} {b : Bytes} :
    TreeAt E σ' g d b ↔ TreeAt E σ g d b := by
  simp only [TreeAt, LargeAt, h]

theorem CLe.blobAt {σ σ' : World} (h : CLe E σ σ') {g : Nat} {d : Id} {b : Bytes}
    (hb : BlobAt E σ g d b) : BlobAt E σ' g d b := by
  by_cases hg : g = 0
  · subst hg; exact h.blob d b hb
  · exact (blobAt_congr (fun p => h.old g p (by omega))).2 hb

theorem CLe.treeAt {σ σ' : World} (h : CLe E σ σ') {g : Nat} {d : Id} {b : Bytes}
    (hb : TreeAt E σ g d b) : TreeAt E σ' g d b := by
  by_cases hg : g = 0
  · subst hg; exact h.tree d b hb
  · exact (treeAt_congr (fun p => h.old g p (by omega))).2 hb

theorem CLe.has {σ σ' : World} (h : CLe E σ σ') {g : Nat} {k : Kind} {d : Id}
    (hb : Has E σ g k d) : Has E σ' g k d := by
  cases k with
  | blob x => obtain ⟨b, hb⟩ := hb; exact ⟨b, h.blobAt hb⟩
  | tree => obtain ⟨b, hb⟩ := hb; exact ⟨b, h.treeAt hb⟩

theorem CLe.outputs {σ σ' : World} (h : CLe E σ σ') {g : Nat} {r : Result}
    (ho : Outputs E σ g r) : Outputs E σ' g r := by
  refine ⟨fun f hf => ?_, fun t ht => ?_, fun d hd => ?_⟩
  · obtain ⟨b, hb⟩ := ho.1 f hf; exact ⟨b, h.blobAt hb⟩
  · obtain ⟨b, hb⟩ := ho.2.1 t ht; exact ⟨b, h.blobAt hb⟩
  · obtain ⟨b, hb⟩ := ho.2.2 d hd; exact ⟨b, h.treeAt hb⟩

theorem CLe.treeClosed {σ σ' : World} (h : CLe E σ σ') {g : Nat} {b : Bytes}
    (ho : TreeClosed E σ g b) : TreeClosed E σ' g b := by
  obtain ⟨es, h1, h2⟩ := ho
  exact ⟨es, h1, fun e he => h.has (h2 e he)⟩

theorem CLe.actionGood {σ σ' : World} (h : CLe E σ σ') {g : Nat} {e : Bytes}
    (ha : ActionGood E σ g e) : ActionGood E σ' g e := by
  obtain ⟨key, b, r, h1, h2, h3, h4⟩ := ha
  exact ⟨key, b, r, h1, h.blobAt h2, h3, h.outputs h4⟩

theorem CLe.tcEq {σ σ' : World} (h : CLe E σ σ') (g : Nat) (k : Id) :
    σ' g (.tc k) = σ g (.tc k) := by
  by_cases hg : g = 0
  · subst hg; exact h.tc k
  · exact h.old g _ (by omega)

theorem CLe.acEq {σ σ' : World} (h : CLe E σ σ') (g : Nat) (k : Id) :
    σ' g (.ac k) = σ g (.ac k) := by
  by_cases hg : g = 0
  · subst hg; exact h.ac k
  · exact h.old g _ (by omega)

theorem CLe.targetGood {σ σ' : World} (h : CLe E σ σ') {g : Nat} {k : Id} {e : Bytes}
    (ha : TargetGood E U rk σ g k e) : TargetGood E U rk σ' g k e := by
  obtain ⟨i, b, en, as, h1, h2, h3, h4, h5, h6⟩ := ha
  refine ⟨i, b, en, as, h1, h.blobAt h2, h3, h4, fun a ha => h.has (h5 a ha), fun j hj => ?_⟩
  rw [h.tcEq]
  exact h6 j hj

/-- The mode of the program logic for compactification. -/
def cmode (E : Env) (U : Bytes → Prop) (rk : Ranks E U) : Mode where
  I := Inv E U rk
  R := CLe E
  T := False
  refl := CLe.refl E
  trans := CLe.trans

theorem chunk_small (ok : E.OK U) {b c : Bytes} (hc : c ∈ E.chunks b) :
    (E.chunks c).length < 2 := by
  rw [ok.chunks_chunk b c hc]; simp

/-- Adding a file to the youngest generation. -/
theorem cle_of_le {σ : World} {p : Path} {v : Bytes} (hle : Le E σ (σ.set ⟨0, p⟩ (some v)))
    (hac : ∀ k, p ≠ .ac k) (htc : ∀ k, p ≠ .tc k) : CLe E σ (σ.set ⟨0, p⟩ (some v)) where
  old g q hg := by
    rw [set_other]
    rintro ⟨h, -⟩
    simp only at h
    omega
  large t d e ps he hp := hle.large 0 t d e ps he hp
  small c d b hb _ := hle.cas 0 c d b hb
  blob d b hb := hb.mono hle
  tree d b hb := hb.mono hle
  ac k := by
    rw [set_other]
    rintro ⟨-, h⟩
    exact hac k h.symm
  tc k := by
    rw [set_other]
    rintro ⟨-, h⟩
    exact htc k h.symm

theorem hash_isTree (c : Cas) (b : Bytes) : E.hash c b = E.hashL c.isTree b := by
  cases c <;> rfl

/-- The object with a large entry need not be kept as a file. -/
theorem remove_spliced (ok : E.OK U) {σ : World} (hi : Inv E U rk σ) {c : Cas} {d : Id}
    (hl : (σ 0 (.large c.isTree d)).isSome) :
    Inv E U rk (σ.set ⟨0, .cas c d⟩ none) ∧ CLe E σ (σ.set ⟨0, .cas c d⟩ none) := by
  obtain ⟨e, he⟩ := Option.isSome_iff_exists.1 hl
  obtain ⟨b, hb⟩ := hi.large _ _ _ _ he
  -- the removed file, if any, is the large object
  have hrem : ∀ b', σ 0 (.cas c d) = some b' → b' = b := by
    intro b' hb'
    obtain ⟨hU, hd⟩ := hi.cas _ _ _ _ hb'
    rw [hash_isTree] at hd
    exact hashL_inj ok hU hb.1 (hd.trans hb.2.1.symm)
  have hother : ∀ g p, ¬ (g = 0 ∧ p = .cas c d) → σ.set ⟨0, .cas c d⟩ none g p = σ g p := by
    intro g p h
    exact set_other h
  have hsmall : ∀ c' d' b', σ 0 (.cas c' d') = some b' → (E.chunks b').length < 2 →
      σ.set ⟨0, .cas c d⟩ none 0 (.cas c' d') = some b' := by
    intro c' d' b' hb' hs
    by_cases h : (0 : Nat) = 0 ∧ Path.cas c' d' = .cas c d
    · obtain ⟨-, h⟩ := h
      cases h
      rw [hrem b' hb'] at hs
      have := hb.2.2.2.1
      omega
    · rw [hother _ _ h]; exact hb'
  have hlargeE : ∀ g t d', σ.set ⟨0, .cas c d⟩ none g (.large t d') = σ g (.large t d') :=
    fun g t d' => hother _ _ (by simp)
  have hgood : ∀ g t d' e' b', LargeGood E U σ g t d' e' b' →
      LargeGood E U (σ.set ⟨0, .cas c d⟩ none) g t d' e' b' := by
    rintro g t d' e' b' ⟨h1, h2, h3, h4, h5⟩
    refine ⟨h1, h2, h3, h4, fun c' hc' => ?_⟩
    by_cases hg : g = 0
    · subst hg
      exact hsmall _ _ _ (h5 c' hc') (chunk_small ok hc')
    · rw [hother _ _ (by simp [hg])]
      exact h5 c' hc'
  have hlargeAt : ∀ t d' b', LargeAt E σ 0 t d' b' →
      LargeAt E (σ.set ⟨0, .cas c d⟩ none) 0 t d' b' := by
    intro t d' b' hla
    obtain ⟨e', he'⟩ : ∃ e', σ 0 (.large t d') = some e' := by
      obtain ⟨e', _, _, h, -⟩ := hla
      exact ⟨e', h⟩
    obtain ⟨b'', hb''⟩ := hi.large _ _ _ _ he'
    have := hb''.unique ok he' hla
    subst this
    exact (hgood _ _ _ _ _ hb'').largeAt ok (by rw [hlargeE]; exact he')
  have hself : LargeAt E (σ.set ⟨0, .cas c d⟩ none) 0 c.isTree d b :=
    (hgood _ _ _ _ _ hb).largeAt ok (by rw [hlargeE]; exact he)
  have hcle : CLe E σ (σ.set ⟨0, .cas c d⟩ none) := by
    refine ⟨fun g p hg => hother _ _ (by omega), fun t d' e' ps h1 h2 => ⟨e', ?_, h2⟩, hsmall,
      ?_, ?_, fun k => hother _ _ (by simp), fun k => hother _ _ (by simp)⟩
    · rw [hlargeE]; exact h1
    · intro d' b' hb'
      have hplain : ∀ c', c' ≠ .tree → σ 0 (.cas c' d') = some b' →
          BlobAt E (σ.set ⟨0, .cas c d⟩ none) 0 d' b' := by
        intro c' hc' h
        by_cases h' : (0 : Nat) = 0 ∧ Path.cas c' d' = .cas c d
        · obtain ⟨-, h'⟩ := h'
          cases h'
          rw [hrem b' h]
          refine Or.inr (Or.inr ?_)
          have : c.isTree = false := by cases c <;> first | rfl | exact absurd rfl hc'
          rw [this] at hself
          exact hself
        · rw [← hother _ _ h'] at h
          cases c' with
          | tree => exact absurd rfl hc'
          | file => exact Or.inl h
          | exec => exact Or.inr (Or.inl h)
      rcases hb' with h | h | h
      · exact hplain .file (by simp) h
      · exact hplain .exec (by simp) h
      · exact Or.inr (Or.inr (hlargeAt _ _ _ h))
    · intro d' b' hb'
      rcases hb' with h | h
      · by_cases h' : (0 : Nat) = 0 ∧ Path.cas .tree d' = .cas c d
        · obtain ⟨-, h'⟩ := h'
          cases h'
          rw [hrem b' h]
          exact Or.inr hself
        · rw [← hother _ _ h'] at h
          exact Or.inl h
      · exact Or.inr (hlargeAt _ _ _ h)
  refine ⟨⟨?_, ?_, ?_, ?_, ?_⟩, hcle⟩
  · intro g c' d' b' h
    by_cases h' : g = 0 ∧ Path.cas c' d' = .cas c d
    · obtain ⟨rfl, h'⟩ := h'
      cases h'
      rw [set_same] at h
      cases h
    · rw [hother _ _ h'] at h
      exact hi.cas _ _ _ _ h
  · intro g t d' e' h
    rw [hlargeE] at h
    obtain ⟨b', hb'⟩ := hi.large _ _ _ _ h
    exact ⟨b', hgood _ _ _ _ _ hb'⟩
  · intro g d' b' h
    have : TreeAt E σ g d' b' := by
      rcases h with h | h
      · by_cases h' : g = 0 ∧ Path.cas .tree d' = .cas c d
        · obtain ⟨rfl, h'⟩ := h'
          cases h'
          rw [set_same] at h
          cases h
        · rw [hother _ _ h'] at h
          exact Or.inl h
      · obtain ⟨e', ps, cs, h1, h2, h3, h4⟩ := h
        rw [hlargeE] at h1
        refine Or.inr ⟨e', ps, cs, h1, h2, h3.imp (fun p q hpq => ?_), h4⟩
        by_cases h' : g = 0 ∧ Path.cas .file p = .cas c d
        · obtain ⟨rfl, h'⟩ := h'
          cases h'
          rw [set_same] at hpq
          cases hpq
        · rw [hother _ _ h'] at hpq
          exact hpq
    exact hcle.treeClosed (hi.tree _ _ _ this)
  · intro g k e' h
    rw [hother _ _ (by simp)] at h
    exact hcle.actionGood (hi.action _ _ _ h)
  · intro g k e' h
    rw [hother _ _ (by simp)] at h
    exact hcle.targetGood (hi.target _ _ _ h)

theorem CLe.large_isSome {σ σ' : World} (hi : Inv E U rk σ) (h : CLe E σ σ') {t : Bool}
    {d : Id} (hs : (σ 0 (.large t d)).isSome) : (σ' 0 (.large t d)).isSome := by
  obtain ⟨e, he⟩ := Option.isSome_iff_exists.1 hs
  obtain ⟨b, hb⟩ := hi.large _ _ _ _ he
  obtain ⟨e', h', -⟩ := h.large _ _ _ _ he hb.2.2.1
  rw [h']; rfl

theorem wp_remove_spliced (ok : E.OK U) {c : Cas} {d : Id} {Q : Bool → World → Prop} {σ : World}
    (hi : Inv E U rk σ) (hl : (σ 0 (.large c.isTree d)).isSome)
    (hQ : ∀ σ', CLe E σ σ' → Inv E U rk σ' → σ' 0 (.cas c d) = none → Q true σ') :
    wp (cmode E U rk) (removeL ⟨0, .cas c d⟩) Q σ := by
  refine wp_removeL ?_
  intro σ' (h1 : CLe E σ σ') (i1 : Inv E U rk σ')
  obtain ⟨h2, h3⟩ := remove_spliced ok i1 (CLe.large_isSome hi h1 hl)
  exact ⟨h2, h3, hQ _ (h1.trans h3) h2 (by rw [set_same])⟩

theorem removeInvalid_spec (ok : E.OK U) {c : Cas} {d : Id} {σ : World} :
    wp (cmode E U rk) (removeInvalid E c d) (fun r _ => r = true) σ := by
  unfold removeInvalid
  by_cases hv : E.validName d = true
  · rw [if_pos hv]
    exact rfl
  · rw [if_neg hv]
    refine wp_read_bind ?_
    intro σ1 (h1 : CLe E σ σ1) (i1 : Inv E U rk σ1)
    simp only
    cases hs : σ1 0 (.cas c d) with
    | none => exact rfl
    | some b =>
      exfalso
      obtain ⟨-, hd⟩ := i1.cas _ _ _ _ hs
      apply hv
      rw [← hd]
      cases c with
      | tree => exact ok.valid_tree b
      | file => exact ok.valid_blob b
      | exec => exact ok.valid_blob b

theorem removeIfFile_spec (ok : E.OK U) {c : Cas} {d : Id} {σ : World} (hi : Inv E U rk σ)
    (hl : (σ 0 (.large c.isTree d)).isSome) :
    wp (cmode E U rk) (removeIfFile c d) (fun r _ => r = true) σ := by
  unfold removeIfFile
  refine wp_read_bind ?_
  intro σ1 (h1 : CLe E σ σ1) (i1 : Inv E U rk σ1)
  simp only
  cases hs : σ1 0 (.cas c d) with
  | none => exact rfl
  | some b =>
    simp only [Option.isSome_some, if_true]
    exact wp_remove_spliced ok i1 (CLe.large_isSome hi h1 hl) (fun _ _ _ _ => rfl)

theorem removeSpliced_spec (ok : E.OK U) {t : Bool} {d : Id} {σ : World} :
    wp (cmode E U rk) (removeSpliced t d) (fun r _ => r = true) σ := by
  unfold removeSpliced
  refine wp_read_bind ?_
  intro σ1 (h1 : CLe E σ σ1) (i1 : Inv E U rk σ1)
  simp only
  cases hs : σ1 0 (.large t d) with
  | none => exact rfl
  | some e =>
    simp only [Option.isSome_some, if_true]
    refine wp_mono _ (fun r σ' h => h.2 trivial) _
      (wp_forAll (M := cmode E U rk) (fun _ _ => True) True (fun _ _ _ _ _ _ => trivial) _ σ1 i1 ?_)
    intro c hc σ' (hσ' : CLe E σ1 σ') iσ'
    have : c.isTree = t := by
      cases t with
      | true => simp [splicedStores] at hc; subst hc; rfl
      | false =>
        simp [splicedStores] at hc
        rcases hc with rfl | rfl <;> rfl
    refine wp_mono _ (fun r _ h => ⟨fun _ => trivial, fun _ => h⟩) _
      (removeIfFile_spec ok iσ' ?_)
    rw [this]
    exact CLe.large_isSome i1 hσ' (by rw [hs]; rfl)

theorem wp_create_goodC (ok : E.OK U) {p : Path} {b : Bytes} {Q : Bool → World → Prop} {σ : World}
    (hac : ∀ k, p ≠ .ac k) (htc : ∀ k, p ≠ .tc k)
    (hg : ∀ σ', CLe E σ σ' → Inv E U rk σ' → Good E U rk σ' 0 p b)
    (h : ∀ σ', CLe E σ σ' → Inv E U rk σ' → (σ' 0 p).isSome → Q true σ') :
    wp (cmode E U rk) (createL ⟨0, p⟩ b) Q σ := by
  refine wp_createL (fun σ' hr hi hs => h σ' hr hi hs) ?_
  intro σ' (hr : CLe E σ σ') (hi : Inv E U rk σ') hn
  have hle : Le E σ' (σ'.set ⟨0, p⟩ (some b)) := le_set hn
  have hi' : Inv E U rk (σ'.set ⟨0, p⟩ (some b)) := inv_set ok hi hle (hg σ' hr hi)
  have hcle := cle_of_le hle hac htc
  refine ⟨hi', hcle, h _ (hr.trans hcle) hi' ?_⟩
  rw [set_same]; rfl

/-- Storing a blob. -/
theorem storeObj_specC (ok : E.OK U) {σ : World} {c : Bytes} (hU : U c) :
    wp (cmode E U rk) (storeObj E 0 .file c)
      (fun r σ' => r = some (E.hashBlob c) ∧ σ' 0 (.cas .file (E.hashBlob c)) = some c) σ := by
  unfold storeObj
  refine wp_read_bind ?_
  intro σ1 (h1 : CLe E σ σ1) (i1 : Inv E U rk σ1)
  simp only
  show wp _ (if (σ1 0 (.cas .file (E.hashBlob c))).isSome = true then _ else _) _ _
  cases hv : σ1 0 (.cas .file (E.hashBlob c)) with
  | some b' =>
    rw [Option.isSome_some, if_pos rfl, wp_pure]
    have : b' = c := i1.cas_eq ok hv hU rfl
    exact ⟨rfl, by rw [hv, this]⟩
  | none =>
    simp only [Option.isSome_none, Bool.false_eq_true, if_false]
    refine wp_seq (M := cmode E U rk)
      (Q' := fun r σ' => r = true ∧ σ' 0 (.cas .file (E.hashBlob c)) = some c) i1 ?_ ?_
    · refine wp_create_goodC ok (by simp) (by simp) (fun σ' _ _ => ⟨hU, rfl, by simp⟩) ?_
      intro σ2 h3 i2 hs
      obtain ⟨b', hb'⟩ := Option.isSome_iff_exists.1 hs
      have hb'' : σ2 0 (.cas .file (E.hashBlob c)) = some b' := hb'
      have : b' = c := i2.cas_eq ok hb'' hU rfl
      exact ⟨rfl, by rw [hb'', this]⟩
    · rintro r σ2 _ _ ⟨rfl, h3⟩
      rw [if_pos rfl, wp_pure]
      exact ⟨rfl, h3⟩

theorem storeChunksL_spec (ok : E.OK U) (cs : List Bytes) {σ : World} (hi : Inv E U rk σ)
    (hU : ∀ c ∈ cs, U c) (hs : ∀ c ∈ cs, (E.chunks c).length < 2) :
    wp (cmode E U rk) (storeChunksL E cs)
      (fun r σ' => r = some (cs.map E.hashBlob) ∧
        ∀ c ∈ cs, σ' 0 (.cas .file (E.hashBlob c)) = some c) σ := by
  induction cs generalizing σ with
  | nil => exact ⟨rfl, by simp⟩
  | cons c cs ih =>
    unfold storeChunksL
    refine wp_seq (M := cmode E U rk) hi (storeObj_specC ok (hU c (by simp))) ?_
    rintro r σ1 (h1 : CLe E σ σ1) (i1 : Inv E U rk σ1) ⟨rfl, h2⟩
    simp only
    refine wp_seq (M := cmode E U rk) i1 (ih i1 (fun c' h => hU c' (List.mem_cons_of_mem _ h))
      (fun c' h => hs c' (List.mem_cons_of_mem _ h))) ?_
    rintro r σ2 (h3 : CLe E σ1 σ2) (i2 : Inv E U rk σ2) ⟨rfl, h4⟩
    simp only [wp_pure, List.map_cons]
    refine ⟨trivial, fun c' hc' => ?_⟩
    rcases List.mem_cons.1 hc' with rfl | h
    · exact h3.small _ _ _ h2 (hs c' (by simp))
    · exact h4 c' h

theorem writeEntryL_spec (ok : E.OK U) {t : Bool} {d : Id} {b : Bytes} {σ : World}
    (hU : U b) (hd : E.hashL t b = d)
    (hc : ∀ c ∈ E.chunks b, σ 0 (.cas .file (E.hashBlob c)) = some c)
    (ht : t = true → TreeClosed E σ 0 b) :
    wp (cmode E U rk) (writeEntryL E t d ((E.chunks b).map E.hashBlob))
      (fun _ σ' => 2 ≤ (E.chunks b).length → (σ' 0 (.large t d)).isSome) σ := by
  unfold writeEntryL
  refine wp_read_bind ?_
  intro σ1 (h1 : CLe E σ σ1) (i1 : Inv E U rk σ1)
  simp only
  by_cases hs : (σ1 0 (.large t d)).isSome
  · rw [if_pos hs]
    exact fun _ => hs
  · rw [if_neg hs]
    by_cases hl : ((E.chunks b).map E.hashBlob).length < 2
    · rw [if_pos hl]
      rw [List.length_map] at hl
      exact fun h => absurd h (by omega)
    · rw [if_neg hl]
      rw [List.length_map] at hl
      refine wp_replaceL ?_
      intro σ2 (h4 : CLe E σ1 σ2) (i2 : Inv E U rk σ2)
      have hle := le_replace_large ok i2 hU hd
      have hcle := cle_of_le hle (by simp) (by simp)
      refine ⟨inv_set ok i2 hle ⟨b, ⟨hU, hd, ok.parts_dump _, by omega, fun c h => ?_⟩, fun h => ?_⟩,
        hcle, fun _ => ?_⟩
      · exact (h1.trans h4).small _ _ _ (hc c h) (chunk_small ok h)
      · exact (h1.trans h4).treeClosed (ht h)
      · rw [set_same]; rfl

theorem splitSourceL_spec {t : Bool} {d : Id} {σ : World} :
    wp (cmode E U rk) (splitSourceL t d)
      (fun r σ' => ∀ b, r = some b → U b ∧ E.hashL t b = d ∧ (t = true → TreeClosed E σ' 0 b)) σ := by
  have hread : ∀ (σ1 : World) (c : Cas),
      wp (cmode E U rk) (readL ⟨0, .cas c d⟩)
        (fun r σ' => ∀ b, r = some b → U b ∧ E.hashL c.isTree b = d ∧
          (c.isTree = true → TreeClosed E σ' 0 b)) σ1 := by
    intro σ1 c
    refine wp_readL ?_
    intro σ2 _ (i2 : Inv E U rk σ2) b hb
    obtain ⟨hU, hd⟩ := i2.cas _ _ _ _ hb
    refine ⟨hU, (hash_isTree c b).symm.trans hd, ?_⟩
    intro hc
    cases c with
    | tree => exact i2.tree _ _ _ (Or.inl hb)
    | file => cases hc
    | exec => cases hc
  unfold splitSourceL
  cases t with
  | true =>
    simp only [if_true]
    refine wp_read_bind ?_
    intro σ1 (h1 : CLe E σ σ1) (i1 : Inv E U rk σ1)
    simp only
    by_cases hs : (σ1 0 (.cas .tree d)).isSome
    · rw [if_pos hs]
      exact wp_mono _ (fun r σ' h b hb => ⟨(h b hb).1, (h b hb).2.1, fun _ => (h b hb).2.2 rfl⟩) _
        (hread σ1 .tree)
    · rw [if_neg hs]
      exact fun b hb => by cases hb
  | false =>
    simp only [Bool.false_eq_true, if_false]
    refine wp_read_bind ?_
    intro σ1 (h1 : CLe E σ σ1) (i1 : Inv E U rk σ1)
    simp only
    by_cases hs : (σ1 0 (.cas .file d)).isSome
    · rw [if_pos hs]
      exact wp_mono _ (fun r σ' h b hb => ⟨(h b hb).1, (h b hb).2.1, fun h => h.elim⟩) _
        (hread σ1 .file)
    · rw [if_neg hs]
      refine wp_read_bind ?_
      intro σ2 (h2 : CLe E σ1 σ2) (i2 : Inv E U rk σ2)
      simp only
      by_cases hs : (σ2 0 (.cas .exec d)).isSome
      · rw [if_pos hs]
        exact wp_mono _ (fun r σ' h b hb => ⟨(h b hb).1, (h b hb).2.1, fun h => h.elim⟩) _
          (hread σ2 .exec)
      · rw [if_neg hs]
        exact fun b hb => by cases hb

theorem splitL_spec (ok : E.OK U) {t : Bool} {d : Id} {σ : World} (hi : Inv E U rk σ) :
    wp (cmode E U rk) (splitL E t d)
      (fun r σ' => ∀ ps, r = some ps → 2 ≤ ps.length → (σ' 0 (.large t d)).isSome) σ := by
  unfold splitL
  refine wp_seq (M := cmode E U rk)
    (Q' := fun r σ' => ∀ ps, r = some ps → (σ' 0 (.large t d)).isSome) hi ?_ ?_
  · unfold readEntry
    refine wp_read_bind ?_
    intro σ1 (h1 : CLe E σ σ1) (i1 : Inv E U rk σ1)
    simp only
    cases hv : σ1 0 (.large t d) with
    | none => exact fun ps h => by cases h
    | some e => exact fun ps _ => by rw [hv]; rfl
  rintro r σ1 (h1 : CLe E σ σ1) (i1 : Inv E U rk σ1) h2
  cases r with
  | some ps =>
    simp only [wp_pure]
    rintro ps' h -
    exact h2 ps rfl
  | none =>
    simp only
    refine wp_seq (M := cmode E U rk) i1 splitSourceL_spec ?_
    rintro r σ2 (h3 : CLe E σ1 σ2) (i2 : Inv E U rk σ2) h4
    cases r with
    | none => exact fun ps h => by cases h
    | some b =>
      simp only
      obtain ⟨hU, hd, htc⟩ := h4 b rfl
      refine wp_seq (M := cmode E U rk) i2 (storeChunksL_spec ok _ i2
        (fun c hc => ok.chunks_mem b c hU hc) (fun c hc => chunk_small ok hc)) ?_
      rintro r σ3 (h6 : CLe E σ2 σ3) (i3 : Inv E U rk σ3) ⟨rfl, h7⟩
      simp only
      refine wp_seq (M := cmode E U rk) i3
        (writeEntryL_spec ok hU hd h7 (fun h => h6.treeClosed (htc h))) ?_
      rintro r σ4 (h8 : CLe E σ3 σ4) _ h9
      simp only [wp_pure]
      rintro ps h hl
      cases h
      rw [List.length_map] at hl
      exact h9 hl

theorem splitLarge_spec (ok : E.OK U) {c : Cas} {d : Id} {σ : World} :
    wp (cmode E U rk) (splitLarge E c d) (fun _ _ => True) σ := by
  unfold splitLarge
  refine wp_read_bind ?_
  intro σ1 (h1 : CLe E σ σ1) (i1 : Inv E U rk σ1)
  simp only
  cases hv : σ1 0 (.cas c d) with
  | none => exact trivial
  | some b =>
    simp only
    obtain ⟨-, hd⟩ := i1.cas _ _ _ _ hv
    rw [hd]
    refine wp_seq (M := cmode E U rk) i1 (splitL_spec ok i1) ?_
    rintro r σ2 (h2 : CLe E σ1 σ2) (i2 : Inv E U rk σ2) h3
    cases r with
    | none => exact trivial
    | some ps =>
      simp only
      by_cases hl : ps.length < 2
      · rw [if_pos hl]; exact trivial
      · rw [if_neg hl]
        exact wp_remove_spliced ok i2 (h3 ps rfl (by omega)) (fun _ _ _ _ => trivial)

theorem task_spec (ok : E.OK U) (t : Task) {σ : World} :
    wp (cmode E U rk) (t.run E) (fun _ _ => True) σ := by
  cases t with
  | removeInvalid c d => exact wp_mono _ (fun _ _ _ => trivial) _ (removeInvalid_spec ok)
  | removeSpliced t d => exact wp_mono _ (fun _ _ _ => trivial) _ (removeSpliced_spec ok)
  | splitLarge c d => exact splitLarge_spec ok

end Verif.Storage
