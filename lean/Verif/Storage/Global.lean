import Verif.Storage.LocalTree
import Verif.Storage.GcModel

/-!
# Operations on the whole storage
-/

namespace Verif.Storage

open Prog

variable {E : Env} {U : Bytes → Prop} {rk : Ranks E U} {T : Prop}

/-- Either programs may fail to return, or there is enough fuel for all recursions. -/
def Enough (E : Env) (U : Bytes → Prop) (rk : Ranks E U) (T : Prop) (fuel : Nat) : Prop :=
  T ∨ ∀ i, rk.tree i + 2 ≤ fuel ∧ rk.target i + 1 ≤ fuel

theorem Enough.two {fuel : Nat} (h : Enough E U rk T fuel) : T ∨ 2 ≤ fuel := by
  rcases h with h | h
  · exact Or.inl h
  · exact Or.inr (by have := (h []).1; omega)

theorem Enough.one {fuel : Nat} (h : Enough E U rk T fuel) : T ∨ 1 ≤ fuel := by
  rcases h with h | h
  · exact Or.inl h
  · exact Or.inr (by have := (h []).1; omega)

theorem Enough.tree {fuel : Nat} (h : Enough E U rk T fuel) (i : Id) :
    T ∨ rk.tree i + 2 ≤ fuel := by
  rcases h with h | h
  · exact Or.inl h
  · exact Or.inr (h i).1

theorem Enough.trees {fuel : Nat} (h : Enough E U rk T fuel) :
    T ∨ ∀ i, rk.tree i + 2 ≤ fuel := by
  rcases h with h | h
  · exact Or.inl h
  · exact Or.inr (fun i => (h i).1)

theorem Enough.target {fuel : Nat} (h : Enough E U rk T fuel) (i : Id) :
    T ∨ rk.target i + 1 ≤ fuel := by
  rcases h with h | h
  · exact Or.inl h
  · exact Or.inr (h i).2

theorem cas_isSome {σ σ' : World} (h : Le E σ σ') {g : Nat} {c : Cas} {d : Id}
    (hs : (σ g (.cas c d)).isSome) : (σ' g (.cas c d)).isSome := by
  obtain ⟨b, hb⟩ := Option.isSome_iff_exists.1 hs
  rw [h.cas _ _ _ _ hb]; rfl

/-- The object is somewhere in the storage, in the given CAS or as large object. -/
def Somewhere (E : Env) (σ : World) (c : Cas) (d : Id) : Prop :=
  ∃ g < E.numGen, (σ g (.cas c d)).isSome ∨ (σ g (.large c.isTree d)).isSome

theorem largeAt_isSome {σ : World} {g : Nat} {t : Bool} {d : Id} {b : Bytes}
    (h : LargeAt E σ g t d b) : (σ g (.large t d)).isSome := by
  obtain ⟨e, _, _, he, -⟩ := h
  rw [he]; rfl

theorem isAvailable_spec (ok : E.OK U) {c : Cas} {d : Id} {σ : World} {fuel : Nat}
    (hi : Inv E U rk σ) (hT : Enough E U rk T fuel) :
    wp (mode E U rk T) (isAvailable E fuel c d)
      (fun r σ' => (r = true → (σ' 0 (.cas c d)).isSome) ∧ (Somewhere E σ c d → r = true)) σ := by
  have hblob : ∀ x, wp (mode E U rk T) (globalUplinkBlob E fuel d x)
      (fun r σ' => (r = true → (σ' 0 (.cas (casOf x) d)).isSome) ∧
        (Somewhere E σ (casOf x) d → r = true)) σ := by
    intro x
    unfold globalUplinkBlob
    refine wp_mono _ ?_ _ (wp_anyOf (fun σ' => (σ' 0 (.cas (casOf x) d)).isSome)
      (fun g => (σ g (.cas (casOf x) d)).isSome ∨ (σ g (.large false d)).isSome) _ σ hi ?_)
    · rintro r σ' ⟨h1, h2⟩
      refine ⟨h1, ?_⟩
      rintro ⟨g, hg, h⟩
      refine h2 ⟨g, by simpa [Env.gens] using hg, ?_⟩
      have : (casOf x).isTree = false := by cases x <;> rfl
      rw [this] at h
      exact h
    · intro g _ σ' (hσ' : Le E σ σ') iσ'
      refine wp_mono _ ?_ _ (uplinkBlob_spec ok iσ' hT.two)
      rintro r σ'' ⟨h1, h2⟩
      refine ⟨fun hr => (h1 hr).2 rfl, fun h => h2 (Or.inl ?_)⟩
      rcases h with h | h
      · exact Or.inl (cas_isSome hσ' h)
      · exact Or.inr (large_isSome hi hσ' h)
  cases c with
  | file => exact hblob false
  | exec => exact hblob true
  | tree =>
    show wp _ (globalUplinkTree E fuel d) _ σ
    unfold globalUplinkTree
    refine wp_mono _ ?_ _ (wp_anyOf (fun σ' => (σ' 0 (.cas .tree d)).isSome)
      (fun g => (σ g (.cas .tree d)).isSome ∨ (σ g (.large true d)).isSome) _ σ hi ?_)
    · rintro r σ' ⟨h1, h2⟩
      refine ⟨h1, ?_⟩
      rintro ⟨g, hg, h⟩
      exact h2 ⟨g, by simpa [Env.gens] using hg, h⟩
    · intro g _ σ' (hσ' : Le E σ σ') iσ'
      refine wp_mono _ ?_ _ (uplinkTree_spec ok iσ' (hT.tree d))
      rintro r σ'' ⟨h1, h2⟩
      refine ⟨fun hr => (h1 hr).2 rfl, fun h => h2 ?_⟩
      rcases h with h | h
      · obtain ⟨b, hb⟩ := Option.isSome_iff_exists.1 h
        exact ⟨b, Or.inl (hσ'.cas _ _ _ _ hb)⟩
      · obtain ⟨e, he⟩ := Option.isSome_iff_exists.1 (large_isSome hi hσ' h)
        obtain ⟨b, hb⟩ := iσ'.large _ _ _ _ he
        exact ⟨b, Or.inr (hb.largeAt ok he)⟩

theorem store_spec (ok : E.OK U) {c : Cas} {b : Bytes} {σ : World} {fuel : Nat}
    (hi : Inv E U rk σ) (hT : Enough E U rk T fuel) (hU : U b)
    (ht : c = .tree → TreeClosed E σ 0 b) :
    wp (mode E U rk T) (store E fuel c b)
      (fun r σ' => r = some (E.hash c b) ∧ σ' 0 (.cas c (E.hash c b)) = some b) σ := by
  unfold store
  simp only
  have hsome : ∀ σ', Inv E U rk σ' → (σ' 0 (.cas c (E.hash c b))).isSome →
      σ' 0 (.cas c (E.hash c b)) = some b := by
    intro σ' i' hs
    obtain ⟨b', hb'⟩ := Option.isSome_iff_exists.1 hs
    rw [hb', i'.cas_eq ok hb' hU rfl]
  refine wp_seq hi (isAvailable_spec ok hi hT) ?_
  rintro r σ1 (h1 : Le E σ σ1) (i1 : Inv E U rk σ1) ⟨h2, -⟩
  cases r with
  | true =>
    simp only [if_true, wp_pure]
    exact ⟨trivial, hsome σ1 i1 (h2 rfl)⟩
  | false =>
    simp only [Bool.false_eq_true, if_false]
    refine wp_seq (M := mode E U rk T)
      (Q' := fun r σ' => r = true ∧ σ' 0 (.cas c (E.hash c b)) = some b) i1 ?_ ?_
    · refine wp_create_good ok ⟨hU, rfl, fun h => (ht h).mono h1⟩ ?_
      intro σ2 h3 i2 hs
      exact ⟨rfl, hsome σ2 i2 hs⟩
    · rintro r σ2 _ _ ⟨rfl, h3⟩
      simp only [if_true, wp_pure]
      exact ⟨trivial, h3⟩

theorem lookupSync_spec (ok : E.OK U) {d : Id} {x : Bool} {σ : World} {fuel : Nat}
    (hi : Inv E U rk σ) (hT : Enough E U rk T fuel) :
    wp (mode E U rk T) (lookupSync E fuel d x)
      (fun r σ' => (r = true → (σ' 0 (.cas (casOf x) d)).isSome) ∧
        (Somewhere E σ (casOf !x) d → r = true)) σ := by
  unfold lookupSync
  refine wp_seq hi (isAvailable_spec ok hi hT) ?_
  rintro r σ1 (h1 : Le E σ σ1) (i1 : Inv E U rk σ1) ⟨h2, h3⟩
  cases r with
  | false =>
    simp only [Bool.false_eq_true, if_false, wp_pure]
    exact ⟨fun h => h.elim, fun h => by simpa using h3 h⟩
  | true =>
    simp only [if_true]
    refine wp_read_bind ?_
    intro σ2 (h4 : Le E σ1 σ2) (i2 : Inv E U rk σ2)
    simp only
    obtain ⟨b, hb⟩ := Option.isSome_iff_exists.1 (cas_isSome h4 (h2 rfl))
    simp only [hb]
    obtain ⟨hU, hd⟩ := i2.cas _ _ _ _ hb
    refine wp_seq i2 (store_spec ok i2 hT hU (fun h => absurd h (casOf_ne_tree x))) ?_
    rintro r σ3 (h5 : Le E σ2 σ3) (i3 : Inv E U rk σ3) ⟨rfl, h6⟩
    rw [hash_casOf] at hd h6
    rw [hd] at h6
    simp only [Option.isSome_some, if_true]
    refine wp_mono _ ?_ _ (isAvailable_spec ok i3 hT)
    rintro r σ4 ⟨h7, h8⟩
    exact ⟨h7, fun _ => h8 ⟨0, ok.gens, Or.inl (by rw [h6]; rfl)⟩⟩

theorem lookupBlob_spec (ok : E.OK U) {d : Id} {x : Bool} {σ : World} {fuel : Nat}
    (hi : Inv E U rk σ) (hT : Enough E U rk T fuel) :
    wp (mode E U rk T) (lookupBlob E fuel d x)
      (fun r σ' => (r = true → (σ' 0 (.cas (casOf x) d)).isSome) ∧
        ((∃ g < E.numGen, ∃ b, BlobAt E σ g d b) → r = true)) σ := by
  unfold lookupBlob
  refine wp_seq hi (isAvailable_spec ok hi hT) ?_
  rintro r σ1 (h1 : Le E σ σ1) (i1 : Inv E U rk σ1) ⟨h2, h3⟩
  cases r with
  | true =>
    simp only [if_true, wp_pure]
    exact ⟨fun _ => h2 rfl, fun _ => trivial⟩
  | false =>
    simp only [Bool.false_eq_true, if_false]
    refine wp_mono _ ?_ _ (lookupSync_spec ok i1 hT)
    rintro r σ2 ⟨h4, h5⟩
    refine ⟨h4, ?_⟩
    rintro ⟨g, hg, b, hb⟩
    have hno : ¬ Somewhere E σ (casOf x) d := fun h => by simpa using h3 h
    have htree : (casOf x).isTree = false := by cases x <;> rfl
    refine h5 ⟨g, hg, Or.inl ?_⟩
    rcases hb with hb | hb | hb
    · cases x with
      | false => exact absurd ⟨g, hg, Or.inl (by rw [casOf, if_neg (by simp), hb]; rfl)⟩ hno
      | true => exact cas_isSome h1 (by rw [show casOf (!true) = Cas.file from rfl, hb]; rfl)
    · cases x with
      | true => exact absurd ⟨g, hg, Or.inl (by rw [casOf, if_pos rfl, hb]; rfl)⟩ hno
      | false => exact cas_isSome h1 (by rw [show casOf (!false) = Cas.exec from rfl, hb]; rfl)
    · exact absurd ⟨g, hg, Or.inr (by rw [htree]; exact largeAt_isSome hb)⟩ hno

theorem lookupTree_spec (ok : E.OK U) {d : Id} {σ : World} {fuel : Nat}
    (hi : Inv E U rk σ) (hT : Enough E U rk T fuel) :
    wp (mode E U rk T) (lookupTree E fuel d)
      (fun r σ' => (r = true → (σ' 0 (.cas .tree d)).isSome) ∧
        ((∃ g < E.numGen, ∃ b, TreeAt E σ g d b) → r = true)) σ := by
  unfold lookupTree
  refine wp_mono _ ?_ _ (isAvailable_spec ok hi hT)
  rintro r σ1 ⟨h1, h2⟩
  refine ⟨h1, ?_⟩
  rintro ⟨g, hg, b, hb⟩
  refine h2 ⟨g, hg, ?_⟩
  rcases hb with hb | hb
  · exact Or.inl (by rw [hb]; rfl)
  · exact Or.inr (largeAt_isSome hb)

/-! ### Large objects -/

theorem globalUplinkLarge_spec (ok : E.OK U) {d : Id} {σ : World} {fuel : Nat}
    (hi : Inv E U rk σ) (hT : Enough E U rk T fuel) :
    wp (mode E U rk T) (globalUplinkLarge E fuel d) (fun _ _ => True) σ := by
  unfold globalUplinkLarge
  refine wp_mono _ (fun _ _ _ => trivial) _ (wp_anyOf (fun _ => True) (fun _ => False) _ σ hi ?_)
  intro g _ σ' hσ' iσ'
  refine wp_mono _ ?_ _ (uplinkLarge_spec ok iσ' hT.one (by simp))
  rintro r σ'' _
  exact ⟨fun _ => trivial, fun h => h.elim⟩

theorem entryPath_spec (ok : E.OK U) {t : Bool} {d : Id} {σ : World} {fuel : Nat}
    (hi : Inv E U rk σ) (hT : Enough E U rk T fuel) :
    wp (mode E U rk T) (entryPath E fuel t d)
      (fun r σ' => (r = true → (σ' 0 (.large t d)).isSome) ∧
        ((σ 0 (.large t d)).isSome → r = true)) σ := by
  unfold entryPath
  refine wp_read_bind ?_
  intro σ1 (h1 : Le E σ σ1) (i1 : Inv E U rk σ1)
  simp only
  by_cases hs : (σ1 0 (.large t d)).isSome
  · rw [if_pos hs]
    exact ⟨fun _ => hs, fun _ => rfl⟩
  · rw [if_neg hs]
    have hno : ¬ (σ 0 (.large t d)).isSome := fun h => hs (large_isSome hi h1 h)
    refine wp_seq i1 (globalUplinkLarge_spec ok i1 hT) ?_
    rintro r σ2 _ _ -
    cases r with
    | false =>
      simp only [Bool.false_eq_true, if_false, wp_pure]
      exact ⟨fun h => h.elim, fun h => hno h⟩
    | true =>
      simp only [if_true]
      refine wp_read_bind ?_
      intro σ3 h3 i3
      exact ⟨fun h => h, fun h => absurd h hno⟩

theorem readEntryG_spec (ok : E.OK U) {t : Bool} {d : Id} {σ : World} {fuel : Nat}
    (hi : Inv E U rk σ) (hT : Enough E U rk T fuel) :
    wp (mode E U rk T) (readEntryG E fuel t d)
      (fun r σ' => (∀ ps, r = some ps → ∃ e b, σ' 0 (.large t d) = some e ∧
          LargeGood E U σ' 0 t d e b ∧ ps = (E.chunks b).map E.hashBlob) ∧
        ((σ 0 (.large t d)).isSome → r.isSome)) σ := by
  unfold readEntryG
  refine wp_seq hi (entryPath_spec ok hi hT) ?_
  rintro r σ1 (h1 : Le E σ σ1) (i1 : Inv E U rk σ1) ⟨h2, h3⟩
  cases r with
  | false =>
    simp only [Bool.false_eq_true, if_false, wp_pure]
    exact ⟨by simp, fun h => by simpa using h3 h⟩
  | true =>
    simp only [if_true]
    refine wp_read_bind ?_
    intro σ2 (h4 : Le E σ1 σ2) (i2 : Inv E U rk σ2)
    simp only
    obtain ⟨e, he⟩ := Option.isSome_iff_exists.1 (large_isSome i1 h4 (h2 rfl))
    obtain ⟨b, hb⟩ := i2.large _ _ _ _ he
    simp only [he, wp_pure, hb.2.2.1]
    refine ⟨?_, fun _ => rfl⟩
    rintro ps h
    cases h
    exact ⟨e, b, rfl, hb, rfl⟩

theorem writeEntryG_spec (ok : E.OK U) {t : Bool} {d : Id} {b : Bytes} {σ : World} {fuel : Nat}
    (hi : Inv E U rk σ) (hT : Enough E U rk T fuel) (hU : U b) (hd : E.hashL t b = d)
    (hc : ∀ c ∈ E.chunks b, σ 0 (.cas .file (E.hashBlob c)) = some c)
    (ht : t = true → TreeClosed E σ 0 b) :
    wp (mode E U rk T) (writeEntryG E fuel t d ((E.chunks b).map E.hashBlob))
      (fun r σ' => (r = true ↔ (2 ≤ (E.chunks b).length ∨ (σ' 0 (.large t d)).isSome)) ∧
        (r = true → (σ' 0 (.large t d)).isSome)) σ := by
  unfold writeEntryG
  refine wp_seq hi (entryPath_spec ok hi hT) ?_
  rintro r σ1 (h1 : Le E σ σ1) (i1 : Inv E U rk σ1) ⟨h2, h3⟩
  cases r with
  | true =>
    simp only [if_true, wp_pure]
    exact ⟨⟨fun _ => Or.inr (h2 rfl), fun _ => trivial⟩, fun _ => h2 rfl⟩
  | false =>
    simp only [Bool.false_eq_true, if_false]
    by_cases hl : ((E.chunks b).map E.hashBlob).length < 2
    · rw [if_pos hl, wp_pure]
      have hl' : ¬ 2 ≤ (E.chunks b).length := by
        rw [List.length_map] at hl; omega
      refine ⟨⟨fun h => absurd h (by simp), ?_⟩, fun h => absurd h (by simp)⟩
      rintro (h | h)
      · exact absurd h hl'
      · obtain ⟨e, he⟩ := Option.isSome_iff_exists.1 h
        obtain ⟨b', hb'⟩ := i1.large _ _ _ _ he
        have : b' = b := hashL_inj ok hb'.1 hU (hb'.2.1.trans hd.symm)
        subst this
        exact absurd hb'.2.2.2.1 hl'
    · rw [if_neg hl]
      rw [List.length_map] at hl
      refine wp_replaceL ?_
      intro σ2 (h4 : Le E σ1 σ2) (i2 : Inv E U rk σ2)
      have hle := le_replace_large ok i2 hU hd
      refine ⟨inv_set ok i2 hle ⟨b, ⟨hU, hd, ok.parts_dump _, by omega, fun c h => ?_⟩, fun h => ?_⟩,
        hle, ⟨fun _ => Or.inl (by omega), fun _ => rfl⟩, fun _ => ?_⟩
      · exact (Le.trans h1 h4).cas _ _ _ _ (hc c h)
      · exact (ht h).mono (Le.trans h1 h4)
      · rw [set_same]; rfl

theorem storeChunks_spec (ok : E.OK U) (cs : List Bytes) {σ : World} {fuel : Nat}
    (hi : Inv E U rk σ) (hT : Enough E U rk T fuel) (hU : ∀ c ∈ cs, U c) :
    wp (mode E U rk T) (storeChunks E fuel cs)
      (fun r σ' => r = some (cs.map E.hashBlob) ∧
        ∀ c ∈ cs, σ' 0 (.cas .file (E.hashBlob c)) = some c) σ := by
  induction cs generalizing σ with
  | nil => exact ⟨rfl, by simp⟩
  | cons c cs ih =>
    unfold storeChunks
    refine wp_seq hi (store_spec ok hi hT (hU c (by simp)) (by simp)) ?_
    rintro r σ1 (h1 : Le E σ σ1) (i1 : Inv E U rk σ1) ⟨rfl, h2⟩
    simp only
    refine wp_seq i1 (ih i1 (fun c' h => hU c' (List.mem_cons_of_mem _ h))) ?_
    rintro r σ2 (h3 : Le E σ1 σ2) (i2 : Inv E U rk σ2) ⟨rfl, h4⟩
    simp only [wp_pure, List.map_cons]
    refine ⟨rfl, fun c' hc' => ?_⟩
    rcases List.mem_cons.1 hc' with rfl | h
    · exact h3.cas _ _ _ _ h2
    · exact h4 c' h

theorem splitSource_spec (ok : E.OK U) {t : Bool} {d : Id} {σ : World} {fuel : Nat}
    (hi : Inv E U rk σ) (hT : Enough E U rk T fuel) :
    wp (mode E U rk T) (splitSource E fuel t d)
      (fun r σ' => (∀ b, r = some b → U b ∧ E.hashL t b = d ∧ (t = true → TreeClosed E σ' 0 b)) ∧
        ((∃ g < E.numGen, Has E σ g (if t then .tree else .blob false) d) → r.isSome)) σ := by
  unfold splitSource
  cases t with
  | true =>
    simp only [if_true]
    refine wp_seq hi (isAvailable_spec ok hi hT) ?_
    rintro r σ1 (h1 : Le E σ σ1) (i1 : Inv E U rk σ1) ⟨h2, h3⟩
    cases r with
    | false =>
      simp only [Bool.false_eq_true, if_false, wp_pure]
      refine ⟨by simp, ?_⟩
      rintro ⟨g, hg, b, hb⟩
      refine absurd (h3 ⟨g, hg, ?_⟩) (by simp)
      rcases hb with hb | hb
      · exact Or.inl (by rw [hb]; rfl)
      · exact Or.inr (largeAt_isSome hb)
    | true =>
      simp only [if_true]
      refine wp_readL ?_
      intro σ2 (h4 : Le E σ1 σ2) (i2 : Inv E U rk σ2)
      simp only [World.at]
      refine ⟨?_, fun _ => cas_isSome h4 (h2 rfl)⟩
      intro b hb
      obtain ⟨hU, hd⟩ := i2.cas _ _ _ _ hb
      exact ⟨hU, hd, fun _ => i2.tree _ _ _ (Or.inl hb)⟩
  | false =>
    simp only [Bool.false_eq_true, if_false]
    have hread : ∀ (σ1 : World) (c : Cas), c ≠ .tree → (σ1 0 (.cas c d)).isSome →
        wp (mode E U rk T) (readL ⟨0, .cas c d⟩)
          (fun r σ' => (∀ b, r = some b → U b ∧ E.hashL false b = d ∧
            (False → TreeClosed E σ' 0 b)) ∧
            ((∃ g < E.numGen, Has E σ g (.blob false) d) → r.isSome)) σ1 := by
      intro σ1 c hc hs
      refine wp_readL ?_
      intro σ2 (h4 : Le E σ1 σ2) (i2 : Inv E U rk σ2)
      simp only [World.at]
      refine ⟨?_, fun _ => cas_isSome h4 hs⟩
      intro b hb
      obtain ⟨hU, hd⟩ := i2.cas _ _ _ _ hb
      refine ⟨hU, ?_, fun h => h.elim⟩
      cases c with
      | tree => exact absurd rfl hc
      | file => exact hd
      | exec => exact hd
    refine wp_seq hi (isAvailable_spec ok hi hT) ?_
    rintro r σ1 (h1 : Le E σ σ1) (i1 : Inv E U rk σ1) ⟨h2, h3⟩
    cases r with
    | true =>
      simp only [if_true]
      exact hread σ1 .file (by simp) (h2 rfl)
    | false =>
      simp only [Bool.false_eq_true, if_false]
      refine wp_seq i1 (isAvailable_spec ok i1 hT) ?_
      rintro r σ2 (h4 : Le E σ1 σ2) (i2 : Inv E U rk σ2) ⟨h5, h6⟩
      cases r with
      | true =>
        simp only [if_true]
        exact hread σ2 .exec (by simp) (h5 rfl)
      | false =>
        simp only [Bool.false_eq_true, if_false, wp_pure]
        refine ⟨by simp, ?_⟩
        rintro ⟨g, hg, b, hb⟩
        rcases hb with hb | hb | hb
        · exact absurd (h3 ⟨g, hg, Or.inl (by rw [hb]; rfl)⟩) (by simp)
        · exact absurd (h6 ⟨g, hg, Or.inl (cas_isSome h1 (by rw [hb]; rfl))⟩) (by simp)
        · exact absurd (h3 ⟨g, hg, Or.inr (largeAt_isSome hb)⟩) (by simp)

theorem split_spec (ok : E.OK U) {t : Bool} {d : Id} {σ : World} {fuel : Nat}
    (hi : Inv E U rk σ) (hT : Enough E U rk T fuel) :
    wp (mode E U rk T) (split E fuel t d)
      (fun r σ' => (∀ ps, r = some ps → ∃ b, U b ∧ E.hashL t b = d ∧
          ps = (E.chunks b).map E.hashBlob ∧
          ∀ c ∈ E.chunks b, σ' 0 (.cas .file (E.hashBlob c)) = some c) ∧
        ((∃ g < E.numGen, Has E σ g (if t then .tree else .blob false) d) → r.isSome)) σ := by
  unfold split
  refine wp_seq hi (readEntryG_spec ok hi hT) ?_
  rintro r σ1 (h1 : Le E σ σ1) (i1 : Inv E U rk σ1) ⟨h2, -⟩
  cases r with
  | some ps =>
    simp only [wp_pure]
    refine ⟨?_, fun _ => rfl⟩
    rintro ps' h
    cases h
    obtain ⟨e, b, he, hb, rfl⟩ := h2 _ rfl
    exact ⟨b, hb.1, hb.2.1, rfl, hb.2.2.2.2⟩
  | none =>
    simp only
    refine wp_seq i1 (splitSource_spec ok i1 hT) ?_
    rintro r σ2 (h3 : Le E σ1 σ2) (i2 : Inv E U rk σ2) ⟨h4, h5⟩
    cases r with
    | none =>
      simp only [wp_pure]
      refine ⟨by simp, ?_⟩
      rintro ⟨g, hg, h⟩
      exact h5 ⟨g, hg, h.mono h1⟩
    | some b =>
      simp only
      obtain ⟨hU, hd, htc⟩ := h4 b rfl
      refine wp_seq i2 (storeChunks_spec ok _ i2 hT (fun c hc => ok.chunks_mem b c hU hc)) ?_
      rintro r σ3 (h6 : Le E σ2 σ3) (i3 : Inv E U rk σ3) ⟨rfl, h7⟩
      simp only
      refine wp_seq i3 (writeEntryG_spec ok i3 hT hU hd h7 (fun h => (htc h).mono h6)) ?_
      rintro r σ4 (h8 : Le E σ3 σ4) _ _
      simp only [wp_pure]
      refine ⟨?_, fun _ => rfl⟩
      rintro ps h
      cases h
      exact ⟨b, hU, hd, rfl, fun c hc => h8.cas _ _ _ _ (h7 c hc)⟩

theorem splicePartsG_spec (ok : E.OK U) (ps : List Id) {σ : World} {fuel : Nat}
    (hi : Inv E U rk σ) (hT : Enough E U rk T fuel) :
    wp (mode E U rk T) (splicePartsG E fuel ps)
      (fun r σ' => (∀ b, r = some b → ∃ cs,
          List.Forall₂ (fun p c => σ' 0 (.cas .file p) = some c) ps cs ∧ cs.flatten = b) ∧
        ((∀ p ∈ ps, ∃ g < E.numGen, ∃ b, BlobAt E σ g p b) → r.isSome)) σ := by
  induction ps generalizing σ with
  | nil =>
    refine ⟨?_, fun _ => rfl⟩
    rintro b h
    cases h
    exact ⟨[], List.Forall₂.nil, rfl⟩
  | cons p ps ih =>
    unfold splicePartsG
    refine wp_seq hi (lookupBlob_spec ok hi hT) ?_
    rintro r σ1 (h1 : Le E σ σ1) (i1 : Inv E U rk σ1) ⟨h2, h3⟩
    cases r with
    | false =>
      simp only [Bool.false_eq_true, if_false, wp_pure]
      exact ⟨by simp, fun h => by simpa using h3 (h p (by simp))⟩
    | true =>
      simp only [if_true]
      refine wp_read_bind ?_
      intro σ2 (h4 : Le E σ1 σ2) (i2 : Inv E U rk σ2)
      simp only
      obtain ⟨b, hb⟩ := Option.isSome_iff_exists.1 (cas_isSome h4 (h2 rfl))
      simp only [casOf, Bool.false_eq_true, if_false] at hb
      simp only [hb]
      refine wp_seq i2 (ih i2) ?_
      rintro r σ3 (h5 : Le E σ2 σ3) _ ⟨h6, h7⟩
      have hcomp : (∀ q ∈ p :: ps, ∃ g < E.numGen, ∃ b, BlobAt E σ g q b) → r.isSome := by
        intro h
        refine h7 (fun q hq => ?_)
        obtain ⟨g, hg, b, hb⟩ := h q (List.mem_cons_of_mem _ hq)
        exact ⟨g, hg, b, hb.mono (Le.trans h1 h4)⟩
      cases r with
      | none =>
        simp only [wp_pure]
        exact ⟨by simp, hcomp⟩
      | some bs =>
        simp only [wp_pure]
        refine ⟨?_, fun _ => rfl⟩
        rintro b' h
        cases h
        obtain ⟨cs, hcs, rfl⟩ := h6 bs rfl
        exact ⟨b :: cs, List.Forall₂.cons (h5.cas _ _ _ _ hb) hcs, rfl⟩

theorem entryExists_spec (ok : E.OK U) {e : Id × Kind} {σ : World} {fuel : Nat}
    (hi : Inv E U rk σ) (hT : Enough E U rk T fuel) :
    wp (mode E U rk T) (entryExists E fuel e)
      (fun r σ' => (r = true → Has E σ' 0 e.2 e.1) ∧
        ((∃ g < E.numGen, Has E σ g e.2 e.1) → r = true)) σ := by
  have hlarge : ∀ (σ' : World) t, Inv E U rk σ' → (σ' 0 (.large t e.1)).isSome →
      ∃ b, LargeAt E σ' 0 t e.1 b := by
    intro σ' t i' hs
    obtain ⟨v, hv⟩ := Option.isSome_iff_exists.1 hs
    obtain ⟨b, hb⟩ := i'.large _ _ _ _ hv
    exact ⟨b, hb.largeAt ok hv⟩
  obtain ⟨i, k⟩ := e
  cases k with
  | tree =>
    unfold entryExists
    refine wp_seq hi (entryPath_spec ok hi hT) ?_
    rintro r σ1 (h1 : Le E σ σ1) (i1 : Inv E U rk σ1) ⟨h2, h3⟩
    cases r with
    | true =>
      simp only [if_true, wp_pure]
      obtain ⟨b, hb⟩ := hlarge σ1 true i1 (h2 rfl)
      exact ⟨fun _ => ⟨b, Or.inr hb⟩, fun _ => trivial⟩
    | false =>
      simp only [Bool.false_eq_true, if_false]
      refine wp_mono _ ?_ _ (lookupTree_spec ok i1 hT)
      rintro r σ2 ⟨h4, h5⟩
      refine ⟨fun hr => ?_, ?_⟩
      · obtain ⟨b, hb⟩ := Option.isSome_iff_exists.1 (h4 hr)
        exact ⟨b, Or.inl hb⟩
      · rintro ⟨g, hg, b, hb⟩
        exact h5 ⟨g, hg, b, TreeAt.mono h1 hb⟩
  | blob x =>
    unfold entryExists
    refine wp_seq hi (entryPath_spec ok hi hT) ?_
    rintro r σ1 (h1 : Le E σ σ1) (i1 : Inv E U rk σ1) ⟨h2, h3⟩
    cases r with
    | true =>
      simp only [if_true, wp_pure]
      obtain ⟨b, hb⟩ := hlarge σ1 false i1 (h2 rfl)
      exact ⟨fun _ => ⟨b, Or.inr (Or.inr hb)⟩, fun _ => trivial⟩
    | false =>
      simp only [Bool.false_eq_true, if_false]
      refine wp_mono _ ?_ _ (lookupBlob_spec ok i1 hT)
      rintro r σ2 ⟨h4, h5⟩
      refine ⟨fun hr => ?_, ?_⟩
      · obtain ⟨b, hb⟩ := Option.isSome_iff_exists.1 (h4 hr)
        cases x with
        | false => exact ⟨b, Or.inl hb⟩
        | true => exact ⟨b, Or.inr (Or.inl hb)⟩
      · rintro ⟨g, hg, b, hb⟩
        exact h5 ⟨g, hg, b, BlobAt.mono h1 hb⟩

theorem checkAs_spec (ok : E.OK U) {c : Cas} {b : Bytes} {σ : World} {fuel : Nat}
    (hi : Inv E U rk σ) (hT : Enough E U rk T fuel) :
    wp (mode E U rk T) (checkAs E fuel c b)
      (fun r σ' => (r = true → c = .tree → TreeClosed E σ' 0 b) ∧
        ((c = .tree → ∃ es, E.parseTree b = some es ∧
          ∀ e ∈ es, ∃ g < E.numGen, Has E σ g e.2 e.1) → r = true)) σ := by
  unfold checkAs
  by_cases hc : c = .tree
  · rw [if_pos hc]
    unfold checkTreeInvariant
    cases hp : E.parseTree b with
    | none =>
      simp only [wp_pure]
      refine ⟨fun h => absurd h (by simp), fun h => ?_⟩
      obtain ⟨es, h', -⟩ := h hc
      cases h'
    | some es =>
      simp only
      refine wp_mono _ ?_ _ (wp_forAll (fun e σ' => Has E σ' 0 e.2 e.1)
        (∀ e ∈ es, ∃ g < E.numGen, Has E σ g e.2 e.1) ?_ _ σ hi ?_)
      · rintro r σ' ⟨h1, h2⟩
        refine ⟨fun hr _ => ⟨es, hp, h1 hr⟩, fun h => ?_⟩
        obtain ⟨es', h', h''⟩ := h hc
        cases h'
        exact h2 h''
      · intro e σa σb hab _ h
        exact Has.mono hab h
      · intro e he σ' (hσ' : Le E σ σ') iσ'
        refine wp_mono _ ?_ _ (entryExists_spec ok iσ' hT)
        rintro r σ'' ⟨h1, h2⟩
        refine ⟨h1, fun h => ?_⟩
        obtain ⟨g, hg, h'⟩ := h e he
        exact h2 ⟨g, hg, h'.mono hσ'⟩
  · rw [if_neg hc, wp_pure]
    exact ⟨fun _ h => absurd h hc, fun _ => rfl⟩

/-- The kind of object stored in a CAS. -/
def Cas.kind : Cas → Kind
  | .tree => .tree
  | .file => .blob false
  | .exec => .blob true

theorem lookupAs_spec (ok : E.OK U) {c : Cas} {d : Id} {σ : World} {fuel : Nat}
    (hi : Inv E U rk σ) (hT : Enough E U rk T fuel) :
    wp (mode E U rk T) (lookupAs E fuel c d)
      (fun r σ' => (r = true → (σ' 0 (.cas c d)).isSome) ∧
        ((∃ g < E.numGen, Has E σ g c.kind d) → r = true)) σ := by
  unfold lookupAs
  cases c with
  | tree =>
    rw [if_pos rfl]
    exact lookupTree_spec ok hi hT
  | file =>
    rw [if_neg (by simp)]
    exact lookupBlob_spec ok hi hT
  | exec =>
    rw [if_neg (by simp)]
    exact lookupBlob_spec ok hi hT

theorem forall₂_blob_eq (ok : E.OK U) {σ σ' : World} (hi : Inv E U rk σ) (hi' : Inv E U rk σ')
    {ps : List Id} {cs cs' : List Bytes}
    (h : List.Forall₂ (fun p c => σ' 0 (.cas .file p) = some c) ps cs)
    (h' : List.Forall₂ (fun p c => ∃ g, g < E.numGen ∧ BlobAt E σ g p c) ps cs') : cs = cs' := by
  induction h generalizing cs' with
  | nil => cases h'; rfl
  | cons hp _ ih =>
    cases h' with
    | cons hp' ht =>
      obtain ⟨g, _, hb⟩ := hp'
      obtain ⟨hU, hd⟩ := hi.blobAt ok hb
      rw [hi'.cas_eq ok hp hU hd, ih ht]

theorem splice_spec (ok : E.OK U) {c : Cas} {d : Id} {ps : List Id} {σ : World} {fuel : Nat}
    (hi : Inv E U rk σ) (hT : Enough E U rk T fuel)
    (hU : ∀ cs, List.Forall₂ (fun p b => U b ∧ E.hashBlob b = p) ps cs →
      E.hash c cs.flatten = d → U cs.flatten) :
    wp (mode E U rk T) (splice E fuel c d ps)
      (fun r σ' => (∀ d', r = some d' → d' = d ∧ (σ' 0 (.cas c d)).isSome) ∧
        ((∃ cs, List.Forall₂ (fun p b => ∃ g, g < E.numGen ∧ BlobAt E σ g p b) ps cs ∧
          E.hash c cs.flatten = d ∧ (c = .tree → ∃ es, E.parseTree cs.flatten = some es ∧
            ∀ e ∈ es, ∃ g < E.numGen, Has E σ g e.2 e.1)) → r = some d)) σ := by
  unfold splice
  refine wp_seq hi (lookupAs_spec ok hi hT) ?_
  rintro r σ1 (h1 : Le E σ σ1) (i1 : Inv E U rk σ1) ⟨h2, h3⟩
  cases r with
  | true =>
    simp only [if_true, wp_pure]
    refine ⟨?_, fun _ => trivial⟩
    rintro d' h
    cases h
    exact ⟨rfl, h2 rfl⟩
  | false =>
    simp only [Bool.false_eq_true, if_false]
    refine wp_seq i1 (splicePartsG_spec ok ps i1 hT) ?_
    rintro r σ2 (h4 : Le E σ1 σ2) (i2 : Inv E U rk σ2) ⟨h5, h6⟩
    cases r with
    | none =>
      simp only [wp_pure]
      refine ⟨by simp, ?_⟩
      rintro ⟨cs, hcs, -⟩
      refine absurd (h6 (fun p hp => ?_)) (by simp)
      obtain ⟨b, -, g, hg, hb⟩ : ∃ b, b ∈ cs ∧ ∃ g, g < E.numGen ∧ BlobAt E σ g p b := by
        clear * - hcs hp
        induction hcs with
        | nil => simp at hp
        | cons h _ ih =>
          rcases List.mem_cons.1 hp with rfl | hp'
          · exact ⟨_, by simp, h⟩
          · obtain ⟨b, hb, h'⟩ := ih hp'
            exact ⟨b, List.mem_cons_of_mem _ hb, h'⟩
      exact ⟨g, hg, b, hb.mono h1⟩
    | some b =>
      simp only
      obtain ⟨cs, hcs, hfl⟩ := h5 b rfl
      by_cases hh : E.hash c b = d
      · rw [if_neg (not_not.2 hh)]
        have hUb : U b := by
          rw [← hfl]
          refine hU cs (hcs.imp (fun p c' h => ?_)) (by rw [hfl]; exact hh)
          exact i2.cas _ _ _ _ h
        refine wp_seq i2 (checkAs_spec ok i2 hT) ?_
        rintro r σ3 (h7 : Le E σ2 σ3) (i3 : Inv E U rk σ3) ⟨h8, h9⟩
        cases r with
        | false =>
          simp only [Bool.false_eq_true, if_false, wp_pure]
          refine ⟨by simp, ?_⟩
          rintro ⟨cs', hcs', -, h10⟩
          have := forall₂_blob_eq ok hi i2 hcs hcs'
          subst this
          refine absurd (h9 (fun hc => ?_)) (by simp)
          obtain ⟨es, hp, hes⟩ := h10 hc
          refine ⟨es, by rw [← hfl]; exact hp, fun e he => ?_⟩
          obtain ⟨g, hg, h⟩ := hes e he
          exact ⟨g, hg, h.mono (Le.trans h1 h4)⟩
        | true =>
          simp only [if_true]
          refine wp_mono _ ?_ _ (store_spec ok i3 hT hUb (h8 rfl))
          rintro r σ4 ⟨rfl, h10⟩
          rw [hh] at h10 ⊢
          refine ⟨?_, fun _ => rfl⟩
          rintro d' h
          cases h
          exact ⟨rfl, by rw [h10]; rfl⟩
      · rw [if_pos hh, wp_pure]
        refine ⟨by simp, ?_⟩
        rintro ⟨cs', hcs', h10, -⟩
        have := forall₂_blob_eq ok hi i2 hcs hcs'
        subst this
        rw [hfl] at h10
        exact absurd h10 hh

/-! ### Requests of clients -/

/-- The kind of objects announced by clients. -/
def kindT (isTree : Bool) : Kind := if isTree then .tree else .blob false

/-- Whether what a client sends can be stored: hash and size are as announced, and (for trees) each
entry is in the storage `σ` or otherwise `known`. -/
def Upload.Valid (E : Env) (σ : World) (known : Kind → Id → Prop) (x : Upload) : Prop :=
  x.id = some (E.hash (casT x.isTree) x.data) ∧ (x.size = 0 ∨ x.size = x.data.length) ∧
    (x.isTree = true → ∃ es, E.parseTree x.data = some es ∧
      ∀ e ∈ es, (∃ g < E.numGen, Has E σ g e.2 e.1) ∨ known e.2 e.1)

theorem casT_tree {t : Bool} : casT t = .tree ↔ t = true := by cases t <;> simp [casT]

theorem addData_spec (ok : E.OK U) {t : Bool} {d : Id} {n : Nat} {b : Bytes} {σ : World}
    {fuel : Nat} (hi : Inv E U rk σ) (hT : Enough E U rk T fuel) (hU : U b) :
    wp (mode E U rk T) (addData E fuel t d n b)
      (fun r σ' => (r = true → E.hash (casT t) b = d ∧ (n = 0 ∨ n = b.length) ∧
          σ' 0 (.cas (casT t) d) = some b) ∧
        ((E.hash (casT t) b = d ∧ (n = 0 ∨ n = b.length) ∧ (t = true → ∃ es,
          E.parseTree b = some es ∧ ∀ e ∈ es, ∃ g < E.numGen, Has E σ g e.2 e.1)) →
            r = true)) σ := by
  unfold addData
  refine wp_seq hi (checkAs_spec ok hi hT) ?_
  rintro r σ1 (h1 : Le E σ σ1) (i1 : Inv E U rk σ1) ⟨h2, h3⟩
  cases r with
  | false =>
    simp only [Bool.false_eq_true, if_false, wp_pure]
    refine ⟨by simp, fun ⟨_, _, h⟩ => ?_⟩
    exact absurd (h3 fun hc => h (casT_tree.1 hc)) (by simp)
  | true =>
    simp only [if_true]
    refine wp_seq i1 (store_spec ok i1 hT hU (h2 rfl)) ?_
    rintro r σ2 _ _ ⟨rfl, h5⟩
    simp only [wp_pure, decide_eq_true_eq]
    refine ⟨?_, fun ⟨h, h', _⟩ => ⟨h.symm, h'⟩⟩
    rintro ⟨rfl, h⟩
    exact ⟨rfl, h, h5⟩

theorem updateOne_spec (ok : E.OK U) {x : Upload} {σ : World} {fuel : Nat}
    (hi : Inv E U rk σ) (hT : Enough E U rk T fuel) (hU : U x.data) :
    wp (mode E U rk T) (updateOne E fuel x)
      (fun r σ' => (r = true → x.id = some (E.hash (casT x.isTree) x.data) ∧
          (x.size = 0 ∨ x.size = x.data.length) ∧
          σ' 0 (.cas (casT x.isTree) (E.hash (casT x.isTree) x.data)) = some x.data) ∧
        (x.Valid E σ (fun _ _ => False) → r = true)) σ := by
  unfold updateOne
  cases hx : x.id with
  | none =>
    simp only [wp_pure]
    refine ⟨by simp, fun h => ?_⟩
    have := h.1
    rw [hx] at this
    cases this
  | some d =>
    simp only
    refine wp_mono _ ?_ _ (addData_spec ok hi hT hU)
    rintro r σ' ⟨h1, h2⟩
    refine ⟨fun hr => ?_, fun hv => h2 ?_⟩
    · obtain ⟨rfl, h4, h5⟩ := h1 hr
      exact ⟨rfl, h4, h5⟩
    · obtain ⟨h3, h4, h5⟩ := hv
      rw [hx] at h3
      cases h3
      refine ⟨rfl, h4, fun ht => ?_⟩
      obtain ⟨es, hp, hes⟩ := h5 ht
      exact ⟨es, hp, fun e he => (hes e he).resolve_right id⟩

/-- The objects in a list of uploads. -/
def Among (E : Env) (xs : List Upload) (k : Kind) (i : Id) : Prop :=
  ∃ x ∈ xs, i = E.hash (casT x.isTree) x.data ∧ (k = .tree ↔ x.isTree = true)

/-- Each upload of a batch can be stored once those before it are. -/
def Ordered (E : Env) (σ : World) (xs : List Upload) : Prop :=
  ∀ pre x post, xs = pre ++ x :: post → x.Valid E σ (Among E pre)

theorem has_of_stored {σ : World} {x : Upload} {k : Kind}
    (h : σ 0 (.cas (casT x.isTree) (E.hash (casT x.isTree) x.data)) = some x.data)
    (hk : k = .tree ↔ x.isTree = true) :
    Has E σ 0 k (E.hash (casT x.isTree) x.data) := by
  cases hx : x.isTree with
  | true =>
    rw [hk.2 hx]
    rw [hx] at h
    exact ⟨_, Or.inl h⟩
  | false =>
    rw [hx] at h
    cases k with
    | tree => exact absurd (hk.1 rfl) (by simp [hx])
    | blob y => exact ⟨_, Or.inl h⟩

theorem updateBlobs_spec (ok : E.OK U) {xs : List Upload} {σ : World} {fuel : Nat}
    (hi : Inv E U rk σ) (hT : Enough E U rk T fuel) (hU : ∀ x ∈ xs, U x.data) :
    wp (mode E U rk T) (updateBlobs E fuel xs)
      (fun r σ' => (r = true → ∀ x ∈ xs, x.id = some (E.hash (casT x.isTree) x.data) ∧
          (x.size = 0 ∨ x.size = x.data.length) ∧
          σ' 0 (.cas (casT x.isTree) (E.hash (casT x.isTree) x.data)) = some x.data) ∧
        (Ordered E σ xs → r = true)) σ := by
  unfold updateBlobs
  suffices h : ∀ (done : List Upload) (xs : List Upload) (σ' : World), Le E σ σ' →
      Inv E U rk σ' → (∀ x ∈ xs, U x.data) →
      (∀ x ∈ done, σ' 0 (.cas (casT x.isTree) (E.hash (casT x.isTree) x.data)) = some x.data) →
      wp (mode E U rk T) (Prog.forAll (updateOne E fuel) xs)
        (fun r σ'' => (r = true → ∀ x ∈ xs, x.id = some (E.hash (casT x.isTree) x.data) ∧
          (x.size = 0 ∨ x.size = x.data.length) ∧
          σ'' 0 (.cas (casT x.isTree) (E.hash (casT x.isTree) x.data)) = some x.data) ∧
        ((∀ pre x post, xs = pre ++ x :: post → x.Valid E σ (Among E (done ++ pre))) →
          r = true)) σ' by
    refine wp_mono _ ?_ _ (h [] xs σ (Le.refl E σ) hi hU (fun x hx => absurd hx (by simp)))
    rintro r σ' ⟨h1, h2⟩
    exact ⟨h1, fun ho => h2 (by simpa [Ordered] using ho)⟩
  intro done xs
  induction xs generalizing done with
  | nil =>
    intro σ' _ _ _ _
    exact ⟨fun _ x hx => absurd hx (by simp), fun _ => rfl⟩
  | cons x xs ih =>
    intro σ' hle hi' hU hd
    refine wp_seq hi' (updateOne_spec ok hi' hT (hU x (by simp))) ?_
    rintro r σ1 (h1 : Le E σ' σ1) (i1 : Inv E U rk σ1) ⟨h2, h3⟩
    cases r with
    | false =>
      simp only [Bool.false_eq_true, if_false, wp_pure]
      refine ⟨by simp, fun ho => ?_⟩
      obtain ⟨h4, h5, h6⟩ := ho [] x xs rfl
      refine absurd (h3 ⟨h4, h5, fun ht => ?_⟩) (by simp)
      obtain ⟨es, hp, hes⟩ := h6 ht
      refine ⟨es, hp, fun e he => Or.inl ?_⟩
      rcases hes e he with ⟨g, hg, h⟩ | ⟨y, hy, h, hk⟩
      · exact ⟨g, hg, h.mono hle⟩
      · rw [h]
        exact ⟨0, ok.gens, has_of_stored (hd y (by simpa using hy)) hk⟩
    | true =>
      simp only [if_true]
      have hx := h2 rfl
      refine wp_post i1 (ih (done ++ [x]) σ1 (Le.trans hle h1) i1
        (fun y hy => hU y (List.mem_cons_of_mem _ hy)) ?_) ?_
      · intro y hy
        rcases List.mem_append.1 hy with hy | hy
        · exact h1.cas _ _ _ _ (hd y hy)
        · rw [List.mem_singleton.1 hy]
          exact hx.2.2
      · rintro r σ2 (h4 : Le E σ1 σ2) _ ⟨h5, h6⟩
        refine ⟨fun hr y hy => ?_, fun ho => h6 fun pre y post he => ?_⟩
        · rcases List.mem_cons.1 hy with rfl | hy
          · exact ⟨hx.1, hx.2.1, h4.cas _ _ _ _ hx.2.2⟩
          · exact h5 hr y hy
        · have := ho (x :: pre) y post (by rw [he]; rfl)
          simpa using this

theorem isInCas_spec (ok : E.OK U) {x : Bool × Option Id} {σ : World} {fuel : Nat}
    (hi : Inv E U rk σ) (hT : Enough E U rk T fuel) :
    wp (mode E U rk T) (isInCas E fuel x)
      (fun r σ' => (r = true → ∃ d, x.2 = some d ∧ (σ' 0 (.cas (casT x.1) d)).isSome) ∧
        ((∃ d, x.2 = some d ∧ ∃ g < E.numGen, Has E σ g (kindT x.1) d) → r = true)) σ := by
  obtain ⟨t, o⟩ := x
  cases o with
  | none =>
    simp only [isInCas, wp_pure]
    exact ⟨by simp, by simp⟩
  | some d =>
    simp only [isInCas]
    refine wp_mono _ ?_ _ (lookupAs_spec ok hi hT)
    rintro r σ' ⟨h1, h2⟩
    refine ⟨fun hr => ⟨d, rfl, h1 hr⟩, ?_⟩
    rintro ⟨d', h, h'⟩
    cases h
    refine h2 ?_
    cases t <;> exact h'

theorem findMissing_spec (ok : E.OK U) (xs : List (Bool × Option Id)) {σ : World} {fuel : Nat}
    (hi : Inv E U rk σ) (hT : Enough E U rk T fuel) :
    wp (mode E U rk T) (findMissing E fuel xs)
      (fun ms σ' => ms.Sublist xs ∧
        (∀ x ∈ xs, x ∉ ms → ∃ d, x.2 = some d ∧ (σ' 0 (.cas (casT x.1) d)).isSome) ∧
        (∀ x ∈ ms, ¬ ∃ d, x.2 = some d ∧ ∃ g < E.numGen, Has E σ g (kindT x.1) d)) σ := by
  induction xs generalizing σ with
  | nil => exact ⟨List.Sublist.slnil, by simp, by simp⟩
  | cons x xs ih =>
    refine wp_seq hi (isInCas_spec ok hi hT) ?_
    rintro r σ1 (h1 : Le E σ σ1) (i1 : Inv E U rk σ1) ⟨h2, h3⟩
    refine wp_seq i1 (ih i1) ?_
    rintro ms σ2 (h4 : Le E σ1 σ2) _ ⟨h5, h6, h7⟩
    have h7' : ∀ x ∈ ms, ¬ ∃ d, x.2 = some d ∧ ∃ g < E.numGen, Has E σ g (kindT x.1) d := by
      rintro y hy ⟨d, hd, g, hg, h⟩
      exact h7 y hy ⟨d, hd, g, hg, h.mono h1⟩
    cases r with
    | true =>
      simp only [if_true, wp_pure]
      refine ⟨h5.cons _, fun y hy hn => ?_, h7'⟩
      rcases List.mem_cons.1 hy with rfl | hy
      · obtain ⟨d, hd, h⟩ := h2 rfl
        exact ⟨d, hd, cas_isSome h4 h⟩
      · exact h6 y hy hn
    | false =>
      simp only [Bool.false_eq_true, if_false, wp_pure]
      refine ⟨h5.cons_cons _, fun y hy hn => ?_, fun y hy => ?_⟩
      · rcases List.mem_cons.1 hy with rfl | hy
        · exact absurd (List.mem_cons_self ..) hn
        · exact h6 y hy (fun h => hn (List.mem_cons_of_mem _ h))
      · rcases List.mem_cons.1 hy with rfl | hy
        · intro h
          exact absurd (h3 h) (by simp)
        · exact h7' y hy

theorem readBlobs_spec (ok : E.OK U) (xs : List (Bool × Option Id)) {σ : World} {fuel : Nat}
    (hi : Inv E U rk σ) (hT : Enough E U rk T fuel) :
    wp (mode E U rk T) (readBlobs E fuel xs)
      (fun r _ => (r = none ↔ ∃ x ∈ xs, x.2 = none) ∧ ∀ cs, r = some cs →
        List.Forall₂ (fun x c => ∃ d, x.2 = some d ∧
          (∀ b, c = some b → E.hash (casT x.1) b = d ∧ U b) ∧
          ((∃ g < E.numGen, Has E σ g (kindT x.1) d) → c.isSome)) xs cs) σ := by
  induction xs generalizing σ with
  | nil =>
    simp only [readBlobs, wp_pure]
    refine ⟨by simp, ?_⟩
    rintro cs h
    cases h
    exact List.Forall₂.nil
  | cons x xs ih =>
    obtain ⟨t, o⟩ := x
    cases o with
    | none =>
      simp only [readBlobs, wp_pure]
      exact ⟨by simp, by simp⟩
    | some d =>
      have key : ∀ (c : Option Bytes) (σ' : World), Le E σ σ' → Inv E U rk σ' →
          (∀ b, c = some b → E.hash (casT t) b = d ∧ U b) →
          ((∃ g < E.numGen, Has E σ g (kindT t) d) → c.isSome) →
          wp (mode E U rk T) (do let r ← readBlobs E fuel xs; pure (r.map (c :: ·)))
            (fun r _ => (r = none ↔ ∃ x ∈ (t, some d) :: xs, x.2 = none) ∧ ∀ cs, r = some cs →
              List.Forall₂ (fun x c => ∃ d, x.2 = some d ∧
                (∀ b, c = some b → E.hash (casT x.1) b = d ∧ U b) ∧
                ((∃ g < E.numGen, Has E σ g (kindT x.1) d) → c.isSome))
                ((t, some d) :: xs) cs) σ' := by
        intro c σ' hle i' h1 h2
        refine wp_seq i' (ih i') ?_
        rintro r σ2 _ _ ⟨h3, h4⟩
        simp only [wp_pure]
        refine ⟨by simp [h3], fun cs hcs => ?_⟩
        cases r with
        | none => cases hcs
        | some cs' =>
          cases hcs
          refine List.Forall₂.cons ⟨d, rfl, h1, h2⟩ ((h4 cs' rfl).imp ?_)
          rintro y c' ⟨d', h5, h6, h7⟩
          exact ⟨d', h5, h6, fun ⟨g, hg, h⟩ => h7 ⟨g, hg, h.mono hle⟩⟩
      simp only [readBlobs]
      refine wp_seq hi (lookupAs_spec ok hi hT) ?_
      rintro r σ1 (h1 : Le E σ σ1) (i1 : Inv E U rk σ1) ⟨h2, h3⟩
      cases r with
      | false =>
        simp only [Bool.false_eq_true, if_false]
        refine key none σ1 h1 i1 (by simp) (fun h => absurd (h3 ?_) (by simp))
        cases t <;> exact h
      | true =>
        simp only [if_true]
        refine wp_read_bind ?_
        intro σ2 (h4 : Le E σ1 σ2) (i2 : Inv E U rk σ2)
        obtain ⟨b, hb⟩ := Option.isSome_iff_exists.1 (cas_isSome h4 (h2 rfl))
        refine key _ σ2 (Le.trans h1 h4) i2 ?_ (fun _ => rfl)
        rintro b' h
        rw [show σ2 (⟨0, .cas (casT t) d⟩ : Loc).gen (⟨0, .cas (casT t) d⟩ : Loc).path = some b
          from hb] at h
        cases h
        obtain ⟨hU, hh⟩ := i2.cas _ _ _ _ hb
        exact ⟨hh, hU⟩

/-! ### Action cache and target cache -/

theorem le_replace_key {σ : World} {p : Path} {v : Bytes}
    (hp : (∃ k, p = .ac k) ∨ ∃ k, p = .tc k) : Le E σ (σ.set ⟨0, p⟩ (some v)) := by
  have key : ∀ g q, q ≠ p → σ.set ⟨0, p⟩ (some v) g q = σ g q := by
    intro g q hq
    rw [set_other]
    rintro ⟨-, h⟩
    exact hq h
  have old : ∀ g q, 0 < g → σ.set ⟨0, p⟩ (some v) g q = σ g q := by
    intro g q hg
    rw [set_other]
    rintro ⟨h, -⟩
    exact absurd h (by simp; omega)
  have some' : ∀ g q, (σ g q).isSome → (σ.set ⟨0, p⟩ (some v) g q).isSome := by
    intro g q hs
    by_cases h : g = 0 ∧ q = p
    · obtain ⟨rfl, rfl⟩ := h
      rw [set_same]; rfl
    · rw [set_other h]; exact hs
  refine ⟨fun g c d' b' h => ?_, fun g t' d' e ps he hp' => ⟨e, ?_, hp'⟩,
    fun g k e hg h => (old _ _ hg).trans h,
    fun g k h => some' _ _ h, fun g k e hg h => (old _ _ hg).trans h, fun g k h => some' _ _ h⟩
  · rw [key]
    · exact h
    · rintro rfl
      rcases hp with ⟨_, h⟩ | ⟨_, h⟩ <;> cases h
  · rw [key]
    · exact he
    · rintro rfl
      rcases hp with ⟨_, h⟩ | ⟨_, h⟩ <;> cases h

theorem storeResult_spec (ok : E.OK U) {k : Id} {r : Result} {σ : World} {fuel : Nat}
    (hi : Inv E U rk σ) (hT : Enough E U rk T fuel) (hU : U (E.dumpResult r))
    (ho : Outputs E σ 0 r) :
    wp (mode E U rk T) (storeResult E fuel k r)
      (fun ok σ' => ok = true ∧ (σ' 0 (.ac k)).isSome) σ := by
  unfold storeResult
  refine wp_seq hi (store_spec ok hi hT hU (by simp)) ?_
  rintro q σ1 (h1 : Le E σ σ1) (i1 : Inv E U rk σ1) ⟨rfl, h2⟩
  simp only
  refine wp_replaceL ?_
  intro σ2 (h3 : Le E σ1 σ2) (i2 : Inv E U rk σ2)
  have hle : Le E σ2 (σ2.set ⟨0, .ac k⟩ (some (E.dumpKey (E.hash .file (E.dumpResult r))))) :=
    le_replace_key (Or.inl ⟨k, rfl⟩)
  refine ⟨inv_set ok i2 hle ?_, hle, rfl, by rw [set_same]; rfl⟩
  exact ⟨_, _, r, ok.key_dump _, Or.inl (h3.cas _ _ _ _ h2), ok.result_dump r,
    ho.mono (Le.trans h1 h3)⟩

theorem cachedResult_spec (ok : E.OK U) {k : Id} {σ : World} {fuel : Nat}
    (hi : Inv E U rk σ) (hT : Enough E U rk T fuel) :
    wp (mode E U rk T) (cachedResult E fuel k)
      (fun r σ' => (∀ x, r = some x → Outputs E σ' 0 x) ∧
        (((σ 0 (.ac k)).isSome ∨ ∃ g < E.numGen, ActionDirect E σ g k) → r.isSome)) σ := by
  unfold cachedResult globalUplinkAction
  refine wp_seq hi (wp_anyOf (fun σ' => (σ' 0 (.ac k)).isSome)
      (fun g => (σ 0 (.ac k)).isSome ∨ ActionDirect E σ g k) _ σ hi ?_) ?_
  · intro g _ σ' (hσ' : Le E σ σ') iσ'
    refine wp_mono _ ?_ _ (uplinkAction_spec ok hT.trees)
    rintro r σ'' ⟨h1, h2⟩
    refine ⟨h1, fun h => h2 ?_⟩
    rcases h with h | h
    · exact Or.inl (hσ'.ac _ _ h)
    · exact Or.inr (h.mono hσ')
  rintro q σ1 (h1 : Le E σ σ1) (i1 : Inv E U rk σ1) ⟨h2, h3⟩
  have hhit : ((σ 0 (.ac k)).isSome ∨ ∃ g < E.numGen, ActionDirect E σ g k) →
      (σ1 0 (.ac k)).isSome := by
    rintro (h | ⟨g, hg, h⟩)
    · exact h1.ac _ _ h
    · exact h2 (h3 ⟨g, by simpa [Env.gens] using hg, Or.inr h⟩)
  unfold readActionKey
  rw [wp_bind]
  refine wp_read_bind ?_
  intro σ2 (h4 : Le E σ1 σ2) (i2 : Inv E U rk σ2)
  simp only
  cases hv : σ2 0 (.ac k) with
  | none =>
    simp only [wp_pure]
    refine ⟨by simp, fun h => ?_⟩
    have := h4.ac _ _ (hhit h)
    rw [hv] at this
    simp at this
  | some e =>
    obtain ⟨key, b0, r0, hk, hb0, hp0, ho⟩ := i2.action _ _ _ hv
    simp only [wp_pure, hk]
    refine wp_seq i2 (lookupBlob_spec ok i2 hT) ?_
    rintro q σ3 (h5 : Le E σ2 σ3) (i3 : Inv E U rk σ3) ⟨h6, h7⟩
    have := h7 ⟨0, ok.gens, b0, hb0⟩
    subst this
    simp only [if_true]
    refine wp_read_bind ?_
    intro σ4 (h8 : Le E σ3 σ4) (i4 : Inv E U rk σ4)
    simp only
    obtain ⟨b, hb⟩ := Option.isSome_iff_exists.1 (cas_isSome h8 (h6 rfl))
    simp only [casOf, Bool.false_eq_true, if_false] at hb
    obtain ⟨hU0, hd0⟩ := i2.blobAt ok hb0
    have : b = b0 := i4.cas_eq ok hb hU0 hd0
    subst this
    simp only [hb, wp_pure, hp0]
    refine ⟨?_, fun _ => rfl⟩
    rintro x h
    cases h
    exact ho.mono (Le.trans h5 h8)

theorem storeTarget_spec (ok : E.OK U) {k : Id} {en : Entry} {as : List (Id × Kind)} {σ : World}
    {fuel : Nat} (hi : Inv E U rk σ) (hT : Enough E U rk T fuel) (hU : U (E.dumpEntry en))
    (has : en.artifacts = some as) (ha : ∀ a ∈ as, Has E σ 0 a.2 a.1)
    (himp : ∀ j ∈ en.implied, j = k ∨ ((σ 0 (.tc j)).isSome ∧ rk.target j < rk.target k)) :
    wp (mode E U rk T) (storeTarget E fuel k en)
      (fun ok σ' => ok = true ∧ (σ' 0 (.tc k)).isSome) σ := by
  unfold storeTarget
  refine wp_seq hi (store_spec ok hi hT hU (by simp)) ?_
  rintro q σ1 (h1 : Le E σ σ1) (i1 : Inv E U rk σ1) ⟨rfl, h2⟩
  simp only
  refine wp_replaceL ?_
  intro σ2 (h3 : Le E σ1 σ2) (i2 : Inv E U rk σ2)
  have hle : Le E σ2 (σ2.set ⟨0, .tc k⟩ (some (E.dumpInfo (E.hash .file (E.dumpEntry en))))) :=
    le_replace_key (Or.inr ⟨k, rfl⟩)
  refine ⟨inv_set ok i2 hle ?_, hle, rfl, by rw [set_same]; rfl⟩
  refine ⟨_, _, en, as, ok.info_dump _, Or.inl (h3.cas _ _ _ _ h2), ok.entry_dump en, has,
    fun a h => (ha a h).mono (Le.trans h1 h3), fun j hj => ?_⟩
  rcases himp j hj with h | ⟨h, h'⟩
  · exact Or.inl h
  · exact Or.inr ⟨(Le.trans h1 h3).tc _ _ h, h'⟩

/-- Everything referred to by a target-cache entry is in the youngest generation. -/
def EntryComplete (E : Env) (σ : World) (en : Entry) : Prop :=
  ∃ as, en.artifacts = some as ∧ (∀ a ∈ as, Has E σ 0 a.2 a.1) ∧
    ∀ j ∈ en.implied, (σ 0 (.tc j)).isSome

theorem readTarget_spec (ok : E.OK U) {k : Id} {σ : World} {fuel : Nat}
    (hi : Inv E U rk σ) (hT : Enough E U rk T fuel) :
    wp (mode E U rk T) (readTarget E fuel k)
      (fun r σ' => (∀ en, r = some en → EntryComplete E σ' en) ∧
        (((σ 0 (.tc k)).isSome ∨ ∃ g < E.numGen, TargetDirect E σ g k) → r.isSome)) σ := by
  unfold readTarget globalUplinkTarget
  refine wp_seq hi (wp_anyOf (fun σ' => (σ' 0 (.tc k)).isSome)
      (fun g => (σ 0 (.tc k)).isSome ∨ TargetDirect E σ g k) _ σ hi ?_) ?_
  · intro g _ σ' (hσ' : Le E σ σ') iσ'
    refine wp_mono _ ?_ _ (uplinkTarget_spec ok hT.trees (hT.target k))
    rintro r σ'' ⟨h1, h2⟩
    refine ⟨h1, fun h => h2 ?_⟩
    rcases h with h | h
    · exact Or.inl (hσ'.tc _ _ h)
    · exact Or.inr (h.mono hσ')
  rintro q σ1 (h1 : Le E σ σ1) (i1 : Inv E U rk σ1) ⟨h2, h3⟩
  have hhit : ((σ 0 (.tc k)).isSome ∨ ∃ g < E.numGen, TargetDirect E σ g k) →
      (σ1 0 (.tc k)).isSome := by
    rintro (h | ⟨g, hg, h⟩)
    · exact h1.tc _ _ h
    · exact h2 (h3 ⟨g, by simpa [Env.gens] using hg, Or.inr h⟩)
  refine wp_read_bind ?_
  intro σ2 (h4 : Le E σ1 σ2) (i2 : Inv E U rk σ2)
  simp only
  cases hv : σ2 0 (.tc k) with
  | none =>
    simp only [wp_pure]
    refine ⟨by simp, fun h => ?_⟩
    have := h4.tc _ _ (hhit h)
    rw [hv] at this
    simp at this
  | some e =>
    obtain ⟨i, b0, en, as, hk, hb0, hp0, has, ha, himp⟩ := i2.target _ _ _ hv
    simp only [hk]
    refine wp_seq i2 (lookupBlob_spec ok i2 hT) ?_
    rintro q σ3 (h5 : Le E σ2 σ3) (i3 : Inv E U rk σ3) ⟨h6, h7⟩
    have := h7 ⟨0, ok.gens, b0, hb0⟩
    subst this
    simp only [if_true]
    refine wp_read_bind ?_
    intro σ4 (h8 : Le E σ3 σ4) (i4 : Inv E U rk σ4)
    simp only
    obtain ⟨b, hb⟩ := Option.isSome_iff_exists.1 (cas_isSome h8 (h6 rfl))
    simp only [casOf, Bool.false_eq_true, if_false] at hb
    obtain ⟨hU0, hd0⟩ := i2.blobAt ok hb0
    have : b = b0 := i4.cas_eq ok hb hU0 hd0
    subst this
    simp only [hb, wp_pure, hp0]
    refine ⟨?_, fun _ => rfl⟩
    rintro x h
    cases h
    refine ⟨as, has, fun a h => (ha a h).mono (Le.trans h5 h8), fun j hj => ?_⟩
    rcases himp j hj with rfl | ⟨h, -⟩
    · exact (Le.trans h5 h8).tc _ _ (by rw [hv]; rfl)
    · exact (Le.trans h5 h8).tc _ _ h

end Verif.Storage
