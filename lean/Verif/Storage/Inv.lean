import Mathlib.Data.List.Forall2
import Verif.Storage.Spec
import Verif.Storage.Logic

/-!
# The invariant kept by all storage operations, and the relation between earlier and later storage
-/

namespace Verif.Storage

variable {E : Env} {U : Bytes → Prop}

/-- Earlier and later storage, as long as no garbage collection happens. -/
structure Le (E : Env) (σ σ' : World) : Prop where
  cas : ∀ g c d b, σ g (.cas c d) = some b → σ' g (.cas c d) = some b
  large : ∀ g t d e ps, σ g (.large t d) = some e → E.parseParts e = some ps →
    ∃ e', σ' g (.large t d) = some e' ∧ E.parseParts e' = some ps
  acOld : ∀ g k e, 0 < g → σ g (.ac k) = some e → σ' g (.ac k) = some e
  ac : ∀ g k, (σ g (.ac k)).isSome → (σ' g (.ac k)).isSome
  tcOld : ∀ g k e, 0 < g → σ g (.tc k) = some e → σ' g (.tc k) = some e
  tc : ∀ g k, (σ g (.tc k)).isSome → (σ' g (.tc k)).isSome

theorem Le.refl (E : Env) (σ : World) : Le E σ σ :=
  ⟨fun _ _ _ _ h => h, fun _ _ _ e _ h hp => ⟨e, h, hp⟩, fun _ _ _ _ h => h, fun _ _ h => h,
    fun _ _ _ _ h => h, fun _ _ h => h⟩

theorem Le.trans {E : Env} {σ σ' σ'' : World} (h : Le E σ σ') (h' : Le E σ' σ'') : Le E σ σ'' where
  cas g c d b hb := h'.cas g c d b (h.cas g c d b hb)
  large g t d e ps he hp := by
    obtain ⟨e', h1, h2⟩ := h.large g t d e ps he hp
    exact h'.large g t d e' ps h1 h2
  acOld g k e hg he := h'.acOld g k e hg (h.acOld g k e hg he)
  ac g k he := h'.ac g k (h.ac g k he)
  tcOld g k e hg he := h'.tcOld g k e hg (h.tcOld g k e hg he)
  tc g k he := h'.tc g k (h.tc g k he)

/-! ### What stays true -/

theorem LargeAt.mono {σ σ' : World} (h : Le E σ σ') {g : Nat} {t : Bool} {d : Id} {b : Bytes}
    (hl : LargeAt E σ g t d b) : LargeAt E σ' g t d b := by
  obtain ⟨e, ps, cs, h1, h2, h3, h4⟩ := hl
  obtain ⟨e', h1', h2'⟩ := h.large g t d e ps h1 h2
  exact ⟨e', ps, cs, h1', h2', h3.imp (fun p c hp => h.cas _ _ _ _ hp), h4⟩

theorem BlobAt.mono {σ σ' : World} (h : Le E σ σ') {g : Nat} {d : Id} {b : Bytes}
    (hl : BlobAt E σ g d b) : BlobAt E σ' g d b := by
  rcases hl with hl | hl | hl
  · exact Or.inl (h.cas _ _ _ _ hl)
  · exact Or.inr (Or.inl (h.cas _ _ _ _ hl))
  · exact Or.inr (Or.inr (hl.mono h))

theorem TreeAt.mono {σ σ' : World} (h : Le E σ σ') {g : Nat} {d : Id} {b : Bytes}
    (hl : TreeAt E σ g d b) : TreeAt E σ' g d b := by
  rcases hl with hl | hl
  · exact Or.inl (h.cas _ _ _ _ hl)
  · exact Or.inr (hl.mono h)

theorem Has.mono {σ σ' : World} (h : Le E σ σ') {g : Nat} {k : Kind} {d : Id}
    (hl : Has E σ g k d) : Has E σ' g k d := by
  cases k with
  | blob x => obtain ⟨b, hb⟩ := hl; exact ⟨b, hb.mono h⟩
  | tree => obtain ⟨b, hb⟩ := hl; exact ⟨b, hb.mono h⟩

theorem Outputs.mono {σ σ' : World} (h : Le E σ σ') {g : Nat} {r : Result}
    (hl : Outputs E σ g r) : Outputs E σ' g r := by
  refine ⟨fun f hf => ?_, fun t ht => ?_, fun d hd => ?_⟩
  · obtain ⟨b, hb⟩ := hl.1 f hf; exact ⟨b, hb.mono h⟩
  · obtain ⟨b, hb⟩ := hl.2.1 t ht; exact ⟨b, hb.mono h⟩
  · obtain ⟨b, hb⟩ := hl.2.2 d hd; exact ⟨b, hb.mono h⟩

theorem TreeClosed.mono {σ σ' : World} (h : Le E σ σ') {g : Nat} {b : Bytes}
    (hl : TreeClosed E σ g b) : TreeClosed E σ' g b := by
  obtain ⟨es, h1, h2⟩ := hl
  exact ⟨es, h1, fun e he => (h2 e he).mono h⟩

/-! ### The invariant -/

/-- The parts a large-object entry lists are the chunks of the object, and they are there. -/
def LargeGood (E : Env) (U : Bytes → Prop) (σ : World) (g : Nat) (t : Bool) (d : Id) (e b : Bytes) :
    Prop :=
  U b ∧ E.hashL t b = d ∧ E.parseParts e = some ((E.chunks b).map E.hashBlob) ∧
    2 ≤ (E.chunks b).length ∧ ∀ c ∈ E.chunks b, σ g (.cas .file (E.hashBlob c)) = some c

/-- A key file of the action cache refers to a complete result. -/
def ActionGood (E : Env) (σ : World) (g : Nat) (e : Bytes) : Prop :=
  ∃ key b r, E.parseKey e = some key ∧ BlobAt E σ g key b ∧ E.parseResult b = some r ∧
    Outputs E σ g r

/-- A key file of the target cache refers to a complete entry. -/
def TargetGood (E : Env) (U : Bytes → Prop) (rk : Ranks E U) (σ : World) (g : Nat) (k : Id)
    (e : Bytes) : Prop :=
  ∃ i b en as, E.parseInfo e = some i ∧ BlobAt E σ g i b ∧ E.parseEntry b = some en ∧
    en.artifacts = some as ∧ (∀ a ∈ as, Has E σ g a.2 a.1) ∧
    (∀ j ∈ en.implied, j = k ∨ ((σ g (.tc j)).isSome ∧ rk.target j < rk.target k))

/-- The invariant. -/
structure Inv (E : Env) (U : Bytes → Prop) (rk : Ranks E U) (σ : World) : Prop where
  cas : ∀ g c d b, σ g (.cas c d) = some b → U b ∧ E.hash c b = d
  large : ∀ g t d e, σ g (.large t d) = some e → ∃ b, LargeGood E U σ g t d e b
  tree : ∀ g d b, TreeAt E σ g d b → TreeClosed E σ g b
  action : ∀ g k e, σ g (.ac k) = some e → ActionGood E σ g e
  target : ∀ g k e, σ g (.tc k) = some e → TargetGood E U rk σ g k e

theorem forall₂_map_self {σ : World} {g : Nat} {cs : List Bytes} {f : Bytes → Id}
    (h : ∀ c ∈ cs, σ g (.cas .file (f c)) = some c) :
    List.Forall₂ (fun p c => σ g (.cas .file p) = some c) (cs.map f) cs := by
  induction cs with
  | nil => exact List.Forall₂.nil
  | cons c cs ih =>
    exact List.Forall₂.cons (h c (by simp)) (ih (fun c' hc' => h c' (List.mem_cons_of_mem _ hc')))

theorem forall₂_det {σ : World} {g : Nat} {ps : List Id} {cs cs' : List Bytes}
    (h : List.Forall₂ (fun p c => σ g (.cas .file p) = some c) ps cs)
    (h' : List.Forall₂ (fun p c => σ g (.cas .file p) = some c) ps cs') : cs = cs' := by
  induction h generalizing cs' with
  | nil => cases h'; rfl
  | cons hp _ ih =>
    cases h' with
    | cons hp' ht =>
      rw [hp] at hp'
      cases hp'
      rw [ih ht]

theorem LargeGood.largeAt (ok : E.OK U) {σ : World} {g : Nat} {t : Bool} {d : Id} {e b : Bytes}
    (he : σ g (.large t d) = some e) (h : LargeGood E U σ g t d e b) : LargeAt E σ g t d b :=
  ⟨e, _, E.chunks b, he, h.2.2.1, forall₂_map_self h.2.2.2.2, ok.chunks_flatten b⟩

theorem LargeGood.unique (ok : E.OK U) {σ : World} {g : Nat} {t : Bool} {d : Id} {e b b' : Bytes}
    (he : σ g (.large t d) = some e) (h : LargeGood E U σ g t d e b)
    (hl : LargeAt E σ g t d b') : b' = b := by
  obtain ⟨e', ps, cs, h1, h2, h3, h4⟩ := hl
  rw [he] at h1
  cases h1
  rw [h.2.2.1] at h2
  cases h2
  rw [← h4, ← forall₂_det (forall₂_map_self h.2.2.2.2) h3, ok.chunks_flatten b]

theorem LargeGood.mono {σ σ' : World} (hle : Le E σ σ') {g : Nat} {t : Bool} {d : Id} {e b : Bytes}
    (h : LargeGood E U σ g t d e b) : LargeGood E U σ' g t d e b :=
  ⟨h.1, h.2.1, h.2.2.1, h.2.2.2.1, fun c hc => hle.cas _ _ _ _ (h.2.2.2.2 c hc)⟩

theorem ActionGood.mono {σ σ' : World} (hle : Le E σ σ') {g : Nat} {e : Bytes}
    (h : ActionGood E σ g e) : ActionGood E σ' g e := by
  obtain ⟨key, b, r, h1, h2, h3, h4⟩ := h
  exact ⟨key, b, r, h1, h2.mono hle, h3, h4.mono hle⟩

theorem TargetGood.mono {rk : Ranks E U} {σ σ' : World} (hle : Le E σ σ') {g : Nat} {k : Id}
    {e : Bytes} (h : TargetGood E U rk σ g k e) : TargetGood E U rk σ' g k e := by
  obtain ⟨i, b, en, as, h1, h2, h3, h4, h5, h6⟩ := h
  refine ⟨i, b, en, as, h1, h2.mono hle, h3, h4, fun a ha => (h5 a ha).mono hle, fun j hj => ?_⟩
  rcases h6 j hj with h | h
  · exact Or.inl h
  · exact Or.inr ⟨hle.tc _ _ h.1, h.2⟩

variable {rk : Ranks E U}

/-- What the invariant says about large objects. -/
theorem Inv.largeAt (ok : E.OK U) {σ : World} (hi : Inv E U rk σ) {g : Nat} {t : Bool} {d : Id}
    {b : Bytes} (h : LargeAt E σ g t d b) : U b ∧ E.hashL t b = d := by
  have h' := h
  obtain ⟨e, ps, cs, h1, h2, h3, h4⟩ := h
  obtain ⟨b', hb'⟩ := hi.large g t d e h1
  rw [hb'.unique ok h1 h']
  exact ⟨hb'.1, hb'.2.1⟩

theorem Inv.blobAt (ok : E.OK U) {σ : World} (hi : Inv E U rk σ) {g : Nat} {d : Id} {b : Bytes}
    (h : BlobAt E σ g d b) : U b ∧ E.hashBlob b = d := by
  rcases h with h | h | h
  · exact hi.cas g .file d b h
  · exact hi.cas g .exec d b h
  · exact hi.largeAt ok h

theorem Inv.treeAt (ok : E.OK U) {σ : World} (hi : Inv E U rk σ) {g : Nat} {d : Id} {b : Bytes}
    (h : TreeAt E σ g d b) : U b ∧ E.hashTree b = d := by
  rcases h with h | h
  · exact hi.cas g .tree d b h
  · exact hi.largeAt ok h

theorem hash_inj (ok : E.OK U) {c : Cas} {b b' : Bytes} (h : U b) (h' : U b')
    (he : E.hash c b = E.hash c b') : b = b' := by
  cases c with
  | tree => exact ok.injTree b b' h h' he
  | file => exact ok.injBlob b b' h h' he
  | exec => exact ok.injBlob b b' h h' he

theorem hashL_inj (ok : E.OK U) {t : Bool} {b b' : Bytes} (h : U b) (h' : U b')
    (he : E.hashL t b = E.hashL t b') : b = b' := by
  cases t with
  | true => exact ok.injTree b b' h h' he
  | false => exact ok.injBlob b b' h h' he

/-- Two generations never deliver different content under the same hash. -/
theorem Inv.cas_eq (ok : E.OK U) {σ : World} (hi : Inv E U rk σ) {g : Nat} {c : Cas} {d : Id}
    {b b' : Bytes} (h : σ g (.cas c d) = some b) (hb : U b') (hd : E.hash c b' = d) : b = b' :=
  hash_inj ok (hi.cas _ _ _ _ h).1 hb ((hi.cas _ _ _ _ h).2.trans hd.symm)

/-! ### Writing a file -/

/-- What has to be known before a file is written. -/
def Good (E : Env) (U : Bytes → Prop) (rk : Ranks E U) (σ : World) (g : Nat) : Path → Bytes → Prop
  | .cas c d, v => U v ∧ E.hash c v = d ∧ (c = .tree → TreeClosed E σ g v)
  | .large t d, v => ∃ b, LargeGood E U σ g t d v b ∧ (t = true → TreeClosed E σ g b)
  | .ac _, v => ActionGood E σ g v
  | .tc k, v => TargetGood E U rk σ g k v

theorem Good.mono {σ σ' : World} (hle : Le E σ σ') {g : Nat} {p : Path} {v : Bytes}
    (h : Good E U rk σ g p v) : Good E U rk σ' g p v := by
  cases p with
  | cas c d => exact ⟨h.1, h.2.1, fun hc => (h.2.2 hc).mono hle⟩
  | large t d =>
    obtain ⟨b, h1, h2⟩ := h
    exact ⟨b, h1.mono hle, fun ht => (h2 ht).mono hle⟩
  | ac k => exact ActionGood.mono hle h
  | tc k => exact TargetGood.mono hle h

theorem set_same (σ : World) (g : Nat) (p : Path) (v : Option Bytes) :
    σ.set ⟨g, p⟩ v g p = v := by simp [World.set]

theorem set_other {σ : World} {l : Loc} {v : Option Bytes} {g : Nat} {p : Path}
    (h : ¬ (g = l.gen ∧ p = l.path)) : σ.set l v g p = σ g p := by
  simp only [World.set, if_neg h]

theorem le_set {σ : World} {l : Loc} {v : Bytes} (h : σ.at l = none) :
    Le E σ (σ.set l (some v)) := by
  have key : ∀ g p b, σ g p = some b → σ.set l (some v) g p = some b := by
    intro g p b hb
    rw [set_other]
    · exact hb
    · rintro ⟨rfl, rfl⟩
      simp only [World.at] at h
      rw [h] at hb
      cases hb
  have key' : ∀ g p, (σ g p).isSome → (σ.set l (some v) g p).isSome := by
    intro g p hs
    obtain ⟨b, hb⟩ := Option.isSome_iff_exists.1 hs
    rw [key g p b hb]; rfl
  exact ⟨fun g c d b => key _ _ _, fun g t d e ps he hp => ⟨e, key _ _ _ he, hp⟩,
    fun g k e _ => key _ _ _, fun g k => key' _ _, fun g k e _ => key _ _ _, fun g k => key' _ _⟩

theorem inv_set (ok : E.OK U) {σ : World} {l : Loc} {v : Bytes} (hi : Inv E U rk σ)
    (hle : Le E σ (σ.set l (some v))) (hg : Good E U rk σ l.gen l.path v) :
    Inv E U rk (σ.set l (some v)) := by
  obtain ⟨g0, p0⟩ := l
  simp only at hg
  have hg' := hg.mono hle
  have hcas : ∀ g c d b, σ.set ⟨g0, p0⟩ (some v) g (.cas c d) = some b → U b ∧ E.hash c b = d := by
    intro g c d b hb
    by_cases h : g = g0 ∧ Path.cas c d = p0
    · obtain ⟨rfl, rfl⟩ := h
      rw [set_same] at hb
      cases hb
      exact ⟨hg.1, hg.2.1⟩
    · rw [set_other h] at hb
      exact hi.cas g c d b hb
  have hlarge : ∀ g t d e, σ.set ⟨g0, p0⟩ (some v) g (.large t d) = some e →
      ∃ b, LargeGood E U (σ.set ⟨g0, p0⟩ (some v)) g t d e b ∧
        (t = true → TreeClosed E (σ.set ⟨g0, p0⟩ (some v)) g b) := by
    intro g t d e he
    by_cases h : g = g0 ∧ Path.large t d = p0
    · obtain ⟨rfl, rfl⟩ := h
      rw [set_same] at he
      cases he
      exact hg'
    · rw [set_other h] at he
      obtain ⟨b, hb⟩ := hi.large g t d e he
      refine ⟨b, hb.mono hle, ?_⟩
      rintro rfl
      exact (hi.tree g d b (Or.inr (hb.largeAt ok he))).mono hle
  refine ⟨hcas, fun g t d e he => ?_, ?_, ?_, ?_⟩
  · obtain ⟨b, hb, -⟩ := hlarge g t d e he
    exact ⟨b, hb⟩
  · intro g d b hb
    rcases hb with hb | hb
    · by_cases h : g = g0 ∧ Path.cas .tree d = p0
      · obtain ⟨rfl, rfl⟩ := h
        rw [set_same] at hb
        cases hb
        exact hg'.2.2 rfl
      · rw [set_other h] at hb
        exact (hi.tree g d b (Or.inl hb)).mono hle
    · have hb' := hb
      obtain ⟨e, ps, cs, h1, -⟩ := hb'
      obtain ⟨b', hb', hc⟩ := hlarge g true d e h1
      rw [hb'.unique ok h1 hb]
      exact hc rfl
  · intro g k e he
    by_cases h : g = g0 ∧ Path.ac k = p0
    · obtain ⟨rfl, rfl⟩ := h
      rw [set_same] at he
      cases he
      exact hg'
    · rw [set_other h] at he
      exact (hi.action g k e he).mono hle
  · intro g k e he
    by_cases h : g = g0 ∧ Path.tc k = p0
    · obtain ⟨rfl, rfl⟩ := h
      rw [set_same] at he
      cases he
      exact hg'
    · rw [set_other h] at he
      exact (hi.target g k e he).mono hle

/-- The invariant implies the properties of the specification. -/
theorem Inv.closed (ok : E.OK U) {σ : World} (hi : Inv E U rk σ) (g : Nat) : Closed E σ g where
  tree := hi.tree g
  large t d h := by
    obtain ⟨e, he⟩ := Option.isSome_iff_exists.1 h
    obtain ⟨b, hb⟩ := hi.large g t d e he
    exact ⟨b, hb.largeAt ok he⟩
  action k e he := hi.action g k e he
  target k e he := by
    obtain ⟨i, b, en, as, h1, h2, h3, h4, h5, h6⟩ := hi.target g k e he
    refine ⟨i, b, en, as, h1, h2, h3, h4, h5, fun j hj => ?_⟩
    rcases h6 j hj with rfl | h
    · rw [he]; rfl
    · exact h.1

theorem Inv.intact (ok : E.OK U) {σ : World} (hi : Inv E U rk σ) (g : Nat) : Intact E σ g where
  blob _ _ h := (hi.blobAt ok h).2
  tree _ _ h := (hi.treeAt ok h).2

/-- The empty storage satisfies the invariant. -/
theorem inv_empty : Inv E U rk (fun _ _ => none) where
  cas := by simp
  large := by simp
  tree := by
    intro g d b h
    rcases h with h | h
    · cases h
    · obtain ⟨_, _, _, h, -⟩ := h
      cases h
  action := by simp
  target := by simp

/-- The mode of the program logic for storage operations. -/
def mode (E : Env) (U : Bytes → Prop) (rk : Ranks E U) (T : Prop) : Mode where
  I := Inv E U rk
  R := Le E
  T := T
  refl := Le.refl E
  trans := Le.trans

end Verif.Storage
