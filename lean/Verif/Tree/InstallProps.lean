import Verif.Tree.InstallLemmas

/-!
# C80: installed artifacts are at their places
-/

namespace Verif.Install

open Verif.Dig (ObjectType)
open Verif.Path
open Verif.Roots (Out Name Content Canonical)
open Verif.Tree (Info Obs Env Store Ent Groups Listing NoCollision look retrieve parseTree group flat addTo createTree)

/-! ## Statements -/

/-- Artifacts to be installed, by their paths relative to the output directory: paths consist of proper names, no artifact
is at or above the place of another one, and all trees have entries with proper names. -/
structure Plan (E : Env) (S : Store) (X : List (List Str × Info)) : Prop where
  nonempty : ∀ x ∈ X, x.1 ≠ []
  names : ∀ x ∈ X, ∀ a ∈ x.1, ProperName a
  free : ∀ x ∈ X, ∀ y ∈ X, x.1 <+: y.1 → x = y
  clean : ∀ x ∈ X, Clean E S x.2

/-- What is given to `just install`. -/
def request (X : List (List Str × Info)) : List (Str × Info) := X.map fun x => (joinWith '/' x.1, x.2)

/-- There is a file of an artifact at a path in the output directory. -/
def FileAt (E : Env) (S : Store) (X : List (List Str × Info)) (p : List Str) (ty : ObjectType) (id : Str) : Prop :=
  ∃ x ∈ X, ∃ q, p = x.1 ++ q ∧ look E S x.2 q = some (.leaf ty id)

/-- The object, and all objects below, are in the CAS; symbolic links in trees are non-upwards. -/
inductive Present (E : Env) (C : Cas) : Info → Prop
  | blob {i : Info} {c : Str} : i.type ≠ .tree → C.blob i.id = some c → (i.type = .symlink → c ≠ []) → Present E C i
  | tree {id d : Str} {l : List Ent} : retrieve E C.trees id = some d → parseTree d = some l →
      (∀ e ∈ l, e.type = .symlink → ∃ c, C.blob e.id = some c ∧ nonUpwards c = .val true) →
      (∀ e ∈ l, Present E C ⟨e.type, e.id⟩) → Present E C ⟨.tree, id⟩

/-- Nothing is in the way: no file where there has to be a directory, and no directory where there has to be a file. -/
structure Room (E : Env) (S : Store) (base : List Str) (X : List (List Str × Info)) (fs : FS) : Prop where
  top : ∀ p, p <+: base → ∀ ty id, fs.at p ≠ some (.leaf ty id)
  dirs : ∀ p q ty id, q ≠ [] → FileAt E S X (p ++ q) ty id → ∀ ty' id', fs.at (base ++ p) ≠ some (.leaf ty' id')
  files : ∀ p ty id, FileAt E S X p ty id → fs.at (base ++ p) ≠ some .dir

/-- Every directory in the artifacts has a file somewhere below it. -/
def NoEmptyDirs (E : Env) (S : Store) (X : List (List Str × Info)) : Prop :=
  ∀ x ∈ X, ∀ q, look E S x.2 q = some .dir → ∃ r ty id, look E S x.2 (q ++ r) = some (.leaf ty id)

/-! ## Files of the artifacts -/

theorem look_prefix {E : Env} {S : Store} : ∀ (q r : List Str) (i : Info) (ty : ObjectType) (id : Str), r ≠ [] →
    look E S i q = some (.leaf ty id) → look E S i (q ++ r) = none
  | [], r, i, ty, id, hr, h => by
    cases r with
    | nil => exact absurd rfl hr
    | cons n r =>
      rw [List.nil_append, look]
      split
      · rename_i ht
        rw [look, if_pos ht] at h
        cases h
      · rfl
  | n :: q, r, i, ty, id, hr, h => by
    rw [List.cons_append]
    rw [look] at h ⊢
    split
    · rename_i ht
      rw [if_pos ht] at h
      cases hd : retrieve E S i.id with
      | none => rfl
      | some d =>
        rw [hd, Option.bind_some] at h
        rw [Option.bind_some]
        cases hp : parseTree d with
        | none => rfl
        | some l =>
          rw [hp, Option.bind_some] at h
          rw [Option.bind_some]
          cases hf : l.find? fun e => e.name = n with
          | none => rfl
          | some e =>
            rw [hf, Option.bind_some] at h
            exact look_prefix q r _ ty id hr h
    · rfl

/-- Above something there are directories. -/
theorem look_above {E : Env} {S : Store} : ∀ (q r : List Str) (i : Info) (o : Obs), r ≠ [] →
    look E S i (q ++ r) = some o → look E S i q = some .dir
  | [], r, i, o, hr, h => by
    cases r with
    | nil => exact absurd rfl hr
    | cons n r =>
      rw [List.nil_append, look] at h
      split at h
      · rename_i ht
        rw [look, if_pos ht]
      · cases h
  | n :: q, r, i, o, hr, h => by
    rw [List.cons_append, look] at h
    rw [look]
    split at h
    · rename_i ht
      rw [if_pos ht]
      cases hd : retrieve E S i.id with
      | none => rw [hd] at h; cases h
      | some d =>
        rw [hd, Option.bind_some] at h
        rw [Option.bind_some]
        cases hp : parseTree d with
        | none => rw [hp] at h; cases h
        | some l =>
          rw [hp, Option.bind_some] at h
          rw [Option.bind_some]
          cases hf : l.find? fun e => e.name = n with
          | none => rw [hf] at h; cases h
          | some e =>
            rw [hf, Option.bind_some] at h
            rw [Option.bind_some]
            exact look_above q r _ o hr h
    · cases h

/-- Files are not above files, and at a place there is one file. -/
theorem fileAt_unique {E : Env} {S : Store} {X : List (List Str × Info)} (h : Plan E S X) {p q : List Str}
    {ty ty' : ObjectType} {id id' : Str} (h1 : FileAt E S X p ty id) (h2 : FileAt E S X (p ++ q) ty' id') :
    q = [] ∧ ty = ty' ∧ id = id' := by
  obtain ⟨x, hx, a, rfl, ha⟩ := h1
  obtain ⟨y, hy, b, e, hb⟩ := h2
  have hxy : x = y := by
    rcases List.prefix_or_prefix_of_prefix (l₁ := x.1) (l₂ := y.1) (l₃ := x.1 ++ a ++ q)
      ⟨a ++ q, by simp⟩ ⟨b, e.symm⟩ with hp | hp
    · exact h.free x hx y hy hp
    · exact (h.free y hy x hx hp).symm
  subst hxy
  rw [List.append_assoc] at e
  have e := List.append_cancel_left e
  subst e
  by_cases hq : q = []
  · subst hq
    rw [List.append_nil, ha] at hb
    injection hb with hb
    injection hb with e1 e2
    exact ⟨rfl, e1, e2⟩
  · rw [look_prefix a q _ _ _ hq ha] at hb
    cases hb

/-- What is written when artifacts are installed. -/
def Installed (E : Env) (S : Store) (base : List Str) (X : List (List Str × Info)) (p : List Str) (j : Info) : Prop :=
  ∃ q, p = base ++ q ∧ FileAt E S X q j.type j.id

theorem request_outs {E : Env} {S : Store} {X : List (List Str × Info)} (h : Plan E S X) (cwd : List Str) (dir : Str) :
    Outs cwd ((request X).map fun x => (append dir x.1, x.2)) ∧
    (∀ x ∈ (request X).map fun x => (append dir x.1, x.2), Clean E S x.2) ∧
    ∀ p j, (∃ x ∈ (request X).map fun x => (append dir x.1, x.2), Files E S (resolve cwd x.1) x.2 p j) ↔
      Installed E S (resolve cwd dir) X p j := by
  have hm : ∀ y, y ∈ ((request X).map fun x => (append dir x.1, x.2)) ↔
      ∃ x ∈ X, y = (append dir (joinWith '/' x.1), x.2) := by
    intro y
    unfold request
    rw [List.map_map, List.mem_map]
    constructor
    · rintro ⟨x, hx, rfl⟩
      exact ⟨x, hx, rfl⟩
    · rintro ⟨x, hx, rfl⟩
      exact ⟨x, hx, rfl⟩
  refine ⟨fun y hy => ?_, fun y hy => ?_, fun p j => ⟨?_, ?_⟩⟩
  · obtain ⟨x, hx, rfl⟩ := (hm y).1 hy
    have := Output.install cwd dir (h.names x hx) (h.nonempty x hx)
    rw [this.path]
    exact this
  · obtain ⟨x, hx, rfl⟩ := (hm y).1 hy
    exact h.clean x hx
  · rintro ⟨y, hy, q, rfl, hq⟩
    obtain ⟨x, hx, rfl⟩ := (hm y).1 hy
    dsimp only at hq ⊢
    rw [resolve_join cwd dir (h.names x hx), List.append_assoc]
    exact ⟨_, rfl, x, hx, q, rfl, hq⟩
  · rintro ⟨r, rfl, x, hx, q, rfl, hq⟩
    refine ⟨_, (hm _).2 ⟨x, hx, rfl⟩, q, ?_, hq⟩
    dsimp only
    rw [resolve_join cwd dir (h.names x hx), List.append_assoc]

/-- What happens on installing. -/
theorem install_spec {E : Env} {S : Store} (hS : NoCollision E S) {C : Cas} (hC : C.In S) {git : Option Cas}
    (hG : ∀ G ∈ git, G.In S) {n : Nat} {cwd : List Str} {dir : Str} {X : List (List Str × Info)} (h : Plan E S X)
    {fs fs' : FS} {b : Bool} (hi : install E C git n cwd dir (request X) fs = .ok (b, fs')) :
    ∃ fs1 b1, mkdirs [] (resolve cwd dir) fs = (b1, fs1) ∧ (b = true → b1 = true) ∧
      Soft (Installed E S (resolve cwd dir) X) fs1 fs' ∧ (b = true → Exact (Installed E S (resolve cwd dir) X) fs1 fs') := by
  obtain ⟨g1, g2, g3⟩ := request_outs h cwd dir
  unfold install at hi
  cases hm : mkdirs [] (resolve cwd dir) fs with
  | mk b1 fs1 =>
    refine ⟨fs1, b1, rfl, ?_⟩
    rw [hm] at hi
    cases b1 with
    | false =>
      cases hi
      exact ⟨(nomatch ·), Soft.refl _ _, (nomatch ·)⟩
    | true =>
      obtain ⟨k1, k2⟩ := retrieve_spec hS hC hG _ _ _ _ g1 g2 hi
      exact ⟨fun _ => rfl, k1.mono fun p j => (g3 p j).1, fun hb => (k2 hb).congr g3⟩

/-! ## C80 -/

/-- **C80.** After artifacts have been installed, each file of the artifacts is at its place, with its type and content;
above files, and at and above the output directory, there are directories; everything else is as it was before. -/
theorem C80_files {E : Env} {S : Store} (hS : NoCollision E S) {C : Cas} (hC : C.In S) {git : Option Cas}
    (hG : ∀ G ∈ git, G.In S) {n : Nat} {cwd : List Str} {dir : Str} {X : List (List Str × Info)} (h : Plan E S X)
    {fs fs' : FS} (hi : install E C git n cwd dir (request X) fs = .ok (true, fs')) :
    (∀ p ty id, FileAt E S X p ty id → fs'.at (resolve cwd dir ++ p) = some (.leaf ty id)) ∧
    (∀ p q ty id, q ≠ [] → FileAt E S X (p ++ q) ty id → fs'.at (resolve cwd dir ++ p) = some .dir) ∧
    (∀ p, p <+: resolve cwd dir → fs'.at p = some .dir) ∧
    (∀ p, ¬ p <+: resolve cwd dir → (∀ q r ty id, p ++ q = resolve cwd dir ++ r → ¬ FileAt E S X r ty id) →
      fs'.at p = fs.at p) := by
  obtain ⟨fs1, b1, hm, hb, _, hx⟩ := install_spec hS hC hG h hi
  cases hb rfl
  have hx := hx rfl
  refine ⟨fun p ty id hp => ?_, fun p q ty id hq hp => ?_, fun p hp => ?_, fun p hp hn => ?_⟩
  · obtain ⟨i', ⟨q, e, h1⟩, h2⟩ := hx.leaf (resolve cwd dir ++ p) ⟨ty, id⟩ ⟨p, rfl, hp⟩
    have e := List.append_cancel_left e
    subst e
    obtain ⟨_, e1, e2⟩ := fileAt_unique h hp (q := []) (by rw [List.append_nil]; exact h1)
    rw [h2, e1, e2]
  · exact hx.above _ q ⟨ty, id⟩ hq ⟨p ++ q, by rw [List.append_assoc], hp⟩
  · have h1 : fs1.at p = some .dir := by
      by_cases h0 : p = []
      · rw [h0]
        rfl
      · have := (mkdirs_true (resolve cwd dir) [] fs (by rw [hm]) p hp h0).1
        rwa [hm] at this
    by_cases hw : ∃ q j, Installed E S (resolve cwd dir) X (p ++ q) j
    · obtain ⟨q, j, hj⟩ := hw
      by_cases hq : q = []
      · subst hq
        rw [List.append_nil] at hj
        exact absurd h1 (hx.notDir p j hj)
      · exact hx.above p q j hq hj
    · rw [hx.same p fun q j hj => hw ⟨q, j, hj⟩, h1]
  · rw [hx.same p fun q j ⟨r, e, hj⟩ => hn q r _ _ e hj]
    have := mkdirs_soft (resolve cwd dir) [] fs p
    rw [hm] at this
    rcases this with e | ⟨k, _, hk, e, _⟩
    · exact e
    · rw [List.nil_append] at e
      exact absurd (e ▸ hk) hp

/-- **C80.** Installing to a directory in which there is nothing yet gives exactly the content of the artifacts. What is
missing: directories without any file below them are not created (V50), so there must be none. -/
theorem C80_content_partial {E : Env} {S : Store} (hS : NoCollision E S) {C : Cas} (hC : C.In S) {git : Option Cas}
    (hG : ∀ G ∈ git, G.In S) {n : Nat} {cwd : List Str} {dir : Str} {X : List (List Str × Info)} (h : Plan E S X)
    (hd : NoEmptyDirs E S X) {fs fs' : FS} (hf : ∀ q, q ≠ [] → fs.at (resolve cwd dir ++ q) = none)
    (hi : install E C git n cwd dir (request X) fs = .ok (true, fs')) :
    Content E S X fun q => fs'.at (resolve cwd dir ++ q) := by
  obtain ⟨h1, h2, h3, h4⟩ := C80_files hS hC hG h hi
  -- where nothing is installed, there is nothing
  have none_at : ∀ q, q ≠ [] → (∀ r ty id, ¬ FileAt E S X (q ++ r) ty id) → fs'.at (resolve cwd dir ++ q) = none := by
    intro q hq hr
    rw [h4 _ ?_ ?_, hf q hq]
    · intro hp
      have := hp.length_le
      have := List.length_pos_of_ne_nil hq
      rw [List.length_append] at *
      omega
    · intro a r ty id e
      rw [List.append_assoc] at e
      rw [← List.append_cancel_left e]
      exact hr a ty id
  refine ⟨fun x hx q => ?_, fun p hp => ?_, fun p hp hn => ?_⟩
  · cases hl : look E S x.2 q with
    | some o =>
      cases o with
      | leaf ty id => exact h1 _ ty id ⟨x, hx, q, rfl, hl⟩
      | dir =>
        obtain ⟨r, ty, id, hr⟩ := hd x hx q hl
        refine h2 (x.1 ++ q) r ty id ?_ ⟨x, hx, q ++ r, by simp, hr⟩
        rintro rfl
        rw [List.append_nil, hl] at hr
        cases hr
    | none =>
      refine none_at _ (by simp [h.nonempty x hx]) fun r ty id hf => ?_
      obtain ⟨y, hy, b, e, hb⟩ := hf
      have hxy : x = y := by
        rcases List.prefix_or_prefix_of_prefix (l₁ := x.1) (l₂ := y.1) (l₃ := x.1 ++ q ++ r)
          ⟨q ++ r, by simp⟩ ⟨b, e.symm⟩ with hp | hp
        · exact h.free x hx y hy hp
        · exact (h.free y hy x hx hp).symm
      subst hxy
      rw [List.append_assoc] at e
      have e := List.append_cancel_left e
      subst e
      by_cases hr : r = []
      · subst hr
        rw [List.append_nil, hl] at hb
        cases hb
      · rw [look_above q r _ _ hr hb] at hl
        cases hl
  · rcases hp with rfl | ⟨x, hx, ⟨r, hr⟩, hne⟩
    · exact h3 _ (by simp)
    · have h0 : r ≠ [] := by
        rintro rfl
        exact hne (by simpa using hr)
      obtain ⟨o, ho⟩ := Roots.look_some E S x.2
      have hfile : ∃ s ty id, look E S x.2 s = some (.leaf ty id) := by
        cases o with
        | leaf ty id => exact ⟨[], ty, id, ho⟩
        | dir =>
          obtain ⟨s, ty, id, hs⟩ := hd x hx [] ho
          exact ⟨s, ty, id, hs⟩
      obtain ⟨s, ty, id, hs⟩ := hfile
      exact h2 p (r ++ s) ty id (by simp [h0]) ⟨x, hx, s, by rw [← hr]; simp, hs⟩
  · refine none_at p hp fun r ty id hf => ?_
    obtain ⟨x, hx, q, e, _⟩ := hf
    rcases List.prefix_or_prefix_of_prefix (l₁ := p) (l₂ := x.1) (l₃ := p ++ r) ⟨r, rfl⟩ ⟨q, e.symm⟩ with hp | hp
    · exact (hn x hx).1 hp
    · exact (hn x hx).2 hp

/-- **C80.** Whether installing succeeds or not, nothing outside of the output directory changes, except that the directories
above it are created. -/
theorem C80_confined {E : Env} {S : Store} (hS : NoCollision E S) {C : Cas} (hC : C.In S) {git : Option Cas}
    (hG : ∀ G ∈ git, G.In S) {n : Nat} {cwd : List Str} {dir : Str} {X : List (List Str × Info)} (h : Plan E S X)
    {fs fs' : FS} {b : Bool} (hi : install E C git n cwd dir (request X) fs = .ok (b, fs')) (p : List Str) :
    fs'.at p = fs.at p ∨ resolve cwd dir <+: p ∨
      p <+: resolve cwd dir ∧ fs.at p = none ∧ fs'.at p = some .dir := by
  obtain ⟨fs1, b1, hm, _, hs, _⟩ := install_spec hS hC hG h hi
  have h1 := mkdirs_soft (resolve cwd dir) [] fs p
  rw [hm] at h1
  dsimp only at h1
  have h1 : fs1.at p = fs.at p ∨ p <+: resolve cwd dir ∧ fs.at p = none ∧ fs1.at p = some .dir := by
    rcases h1 with e | ⟨k, _, hk, e, h2⟩
    · exact .inl e
    · rw [List.nil_append] at e
      exact .inr ⟨e ▸ hk, h2⟩
  rcases hs.change p with e | ⟨i, ⟨q, e, _⟩, _⟩ | ⟨q, i, _, ⟨r, e, _⟩, h2, h3⟩
  · rw [e]
    rcases h1 with h1 | h1
    · exact .inl h1
    · exact .inr (.inr h1)
  · exact .inr (.inl ⟨q, e.symm⟩)
  · rcases List.prefix_or_prefix_of_prefix (l₁ := p) (l₂ := resolve cwd dir) ⟨q, rfl⟩ ⟨r, e.symm⟩ with hp | hp
    · rcases h1 with h1 | h1
      · exact .inr (.inr ⟨hp, h1 ▸ h2, h3⟩)
      · rw [h2] at h1
        cases h1.2.2
    · exact .inr (.inl hp)

/-! ## Success -/

/-- Nothing is in the way of files to be written. -/
structure Space (W : List Str → Info → Prop) (fs : FS) : Prop where
  dirs : ∀ p q i, q ≠ [] → W (p ++ q) i → ∀ ty id, fs.at p ≠ some (.leaf ty id)
  files : ∀ p i, W p i → fs.at p ≠ some .dir

/-- No file to be written is above another one. -/
def Flat (W : List Str → Info → Prop) : Prop := ∀ p q i j, q ≠ [] → W p i → ¬ W (p ++ q) j

theorem Space.after {W W' : List Str → Info → Prop} {fs fs' : FS} (hf : Flat W') (hw : ∀ p i, W p i → W' p i)
    (h : Space W' fs) (he : Exact W fs fs') : Space W' fs' where
  dirs := fun p q i hq hi ty id e => by
    by_cases hp : ∃ r j, W (p ++ r) j
    · obtain ⟨r, j, hj⟩ := hp
      by_cases hr : r = []
      · subst hr
        rw [List.append_nil] at hj
        exact hf p q j i hq (hw p j hj) hi
      · rw [he.above p r j hr hj] at e
        cases e
    · rw [he.same p fun r j hj => hp ⟨r, j, hj⟩] at e
      exact h.dirs p q i hq hi ty id e
  files := fun p i hi e => by
    by_cases hp : ∃ r j, W (p ++ r) j
    · obtain ⟨r, j, hj⟩ := hp
      by_cases hr : r = []
      · subst hr
        rw [List.append_nil] at hj
        obtain ⟨i', _, h2⟩ := he.leaf p j hj
        rw [h2] at e
        cases e
      · exact hf p r i j hr hi (hw _ j hj)
    · rw [he.same p fun r j hj => hp ⟨r, j, hj⟩] at e
      exact h.files p i hi e

theorem mkdirs_ok : ∀ (r done : List Str) (fs : FS), (∀ k, k <+: r → k ≠ [] → ∀ ty id, fs.at (done ++ k) ≠ some (.leaf ty id)) →
    (mkdirs done r fs).1 = true
  | [], _, _, _ => rfl
  | n :: r, done, fs, h => by
    have hn := h [n] (by simp) (by simp)
    have hr : ∀ k, k <+: r → k ≠ [] → ∀ ty id, fs.at (done ++ [n] ++ k) ≠ some (.leaf ty id) := by
      intro k hk _
      rw [List.append_assoc, List.singleton_append]
      exact h (n :: k) (by simpa using hk) (by simp)
    rw [mkdirs]
    split
    · exact mkdirs_ok r _ fs hr
    · rename_i e
      exact absurd e (hn _ _)
    · refine mkdirs_ok r _ _ fun k hk h0 ty id => ?_
      rw [at_put (by simp), if_neg (by simp [h0])]
      exact hr k hk h0 ty id

/-- The content of a file is there. -/
def Available (C : Cas) (i : Info) : Prop := ∃ c, C.blob i.id = some c ∧ (i.type = .symlink → c ≠ [])

theorem stageBlob_ok {C : Cas} {cwd : List Str} {out : Str} {P : List Str} (hO : Output cwd out P) {i : Info} {fs : FS}
    (ha : Available C i) (h1 : ∀ k r, P = k ++ r → r ≠ [] → ∀ ty id, fs.at k ≠ some (.leaf ty id))
    (h2 : fs.at P ≠ some .dir) : ∃ fs', stageBlob C cwd out i fs = (true, fs') := by
  obtain ⟨c, hc, hl⟩ := ha
  unfold stageBlob
  rw [hc, hO.path, hO.parent.2]
  dsimp only
  have hm := mkdirs_ok P.dropLast [] fs (by
    rintro k ⟨r, hr⟩ _
    rw [List.nil_append]
    refine h1 k (r ++ [P.getLast hO.parent.1]) ?_ (by simp)
    rw [← List.append_assoc, hr, List.dropLast_append_getLast])
  have hs := mkdirs_soft P.dropLast [] fs P
  cases hmk : mkdirs [] P.dropLast fs with
  | mk b fs1 =>
    rw [hmk] at hm hs
    cases hm
    dsimp only at hs ⊢
    unfold copyAs
    rw [if_neg fun h => hl h.1 h.2]
    have : fs1.at P ≠ some .dir := by
      rcases hs with e | ⟨k, _, ⟨r, hr⟩, e, _⟩
      · rw [e]
        exact h2
      · rw [List.nil_append] at e
        have := congrArg List.length hr
        rw [← e, List.length_append, List.length_dropLast] at this
        have := List.length_pos_of_ne_nil hO.parent.1
        omega
    split
    · rename_i e
      exact absurd e this
    · exact ⟨_, rfl⟩

theorem stageBlobs_ok {C : Cas} {cwd : List Str} {W : List Str → Info → Prop} (hf : Flat W) : ∀ (L : List (Str × Info)) (fs : FS),
    Outs cwd L → (∀ x ∈ L, Available C x.2) → (∀ x ∈ L, W (resolve cwd x.1) x.2) → Space W fs →
    ∃ fs', stageBlobs C cwd L fs = (true, fs')
  | [], fs, _, _, _, _ => ⟨fs, rfl⟩
  | (out, i) :: L, fs, ho, ha, hw, hs => by
    have hO := ho (out, i) (by simp)
    have hW := hw (out, i) (by simp)
    obtain ⟨fs1, h1⟩ := stageBlob_ok hO (ha (out, i) (by simp)) (fs := fs)
      (fun k r e hr => hs.dirs k r i hr (e ▸ hW)) (hs.files _ i hW)
    rw [stageBlobs, h1]
    refine stageBlobs_ok hf L fs1 (fun x hx => ho x (by simp [hx])) (fun x hx => ha x (by simp [hx]))
      (fun x hx => hw x (by simp [hx])) (hs.after hf ?_ (stageBlob_exact hO i h1))
    rintro p j ⟨rfl, rfl⟩
    exact hW

theorem linksOk_true {C : Cas} : ∀ l : List Ent,
    (∀ e ∈ l, e.type = .symlink → ∃ c, C.blob e.id = some c ∧ nonUpwards c = .val true) → linksOk C l = .ok true
  | [], _ => rfl
  | e :: l, h => by
    have ih := linksOk_true l fun e he => h e (by simp [he])
    rw [linksOk]
    split
    · rename_i ht
      obtain ⟨c, h1, h2⟩ := h e (by simp) ht
      rw [h1]
      dsimp only
      rw [h2]
      exact ih
    · exact ih

theorem bound_all {α : Type} {Q : α → Nat → Prop} : ∀ l : List α, (∀ e ∈ l, ∃ N, ∀ n, N ≤ n → Q e n) →
    ∃ N, ∀ n, N ≤ n → ∀ e ∈ l, Q e n
  | [], _ => ⟨0, fun _ _ _ h => (nomatch h)⟩
  | a :: l, h => by
    obtain ⟨N, hN⟩ := h a (by simp)
    obtain ⟨M, hM⟩ := bound_all l fun e he => h e (by simp [he])
    refine ⟨N + M, fun n hn e he => ?_⟩
    rcases List.mem_cons.1 he with rfl | he
    · exact hN n (by omega)
    · exact hM n (by omega) e he

theorem leafs_ok {E : Env} {C : Cas} (hord : ∀ l, (C.ord l).Perm l) {i : Info} (h : Present E C i) : i.type = .tree →
    ∃ N, ∀ n, N ≤ n → ∀ out, ∃ L, leafs E C n out i.id = .ok L ∧ ∀ x ∈ L, Available C x.2 := by
  induction h with
  | blob ht _ _ => exact fun h => absurd h ht
  | @tree id d l hr hp hl hpr ih =>
    intro _
    have hN : ∀ e ∈ l, ∃ N, ∀ n, N ≤ n → e.type = .tree → ∀ out, ∃ L, leafs E C n out e.id = .ok L ∧
        ∀ x ∈ L, Available C x.2 := by
      intro e he
      by_cases ht : e.type = .tree
      · obtain ⟨N, hN⟩ := ih e he ht
        exact ⟨N, fun n hn _ => hN n hn⟩
      · exact ⟨0, fun n _ h => absurd h ht⟩
    obtain ⟨N, hN⟩ := bound_all l hN
    refine ⟨N + 1, fun n hn out => ?_⟩
    obtain ⟨m, rfl⟩ : ∃ m, n = m + 1 := ⟨n - 1, by omega⟩
    have hN := hN m (by omega)
    have hperm : (C.ord (flat (group l))).Perm l := (hord _).trans (Tree.flat_group l)
    rw [leafs]
    have hread : readTree E C id = .ok (C.ord (flat (group l))) := by
      unfold readTree
      rw [hr, Option.bind_some, hp]
      dsimp only
      rw [linksOk_true _ fun e he => hl e (hperm.mem_iff.1 he)]
      rfl
    rw [hread]
    show ∃ L, leafsGo (leafs E C m) out _ = .ok L ∧ _
    have key : ∀ es : List Ent, (∀ e ∈ es, e ∈ l) → ∃ L, leafsGo (leafs E C m) out es = .ok L ∧ ∀ x ∈ L, Available C x.2 := by
      intro es
      induction es with
      | nil => exact fun _ => ⟨[], by rw [leafsGo], fun x hx => (nomatch hx)⟩
      | cons e es ih' =>
        intro hes
        obtain ⟨b, hb, hab⟩ := ih' fun e he => hes e (by simp [he])
        have he := hes e (by simp)
        have : ∃ a, (if e.type = .tree then leafs E C m (append out e.name) e.id
            else .ok [(append out e.name, ⟨e.type, e.id⟩)]) = .ok a ∧ ∀ x ∈ a, Available C x.2 := by
          by_cases ht : e.type = .tree
          · rw [if_pos ht]
            exact hN e he ht _
          · rw [if_neg ht]
            refine ⟨_, rfl, fun x hx => ?_⟩
            rw [List.mem_singleton.1 hx]
            have hpe := hpr e he
            have ht : (⟨e.type, e.id⟩ : Info).type ≠ .tree := ht
            generalize (⟨e.type, e.id⟩ : Info) = i at hpe ht ⊢
            cases hpe with
            | blob _ h1 h2 => exact ⟨_, h1, h2⟩
            | tree => exact absurd rfl ht
        obtain ⟨a, ha, haa⟩ := this
        refine ⟨a ++ b, ?_, fun x hx => (List.mem_append.1 hx).elim (haa x) (hab x)⟩
        rw [leafsGo, ha]
        show (leafsGo (leafs E C m) out es).bind _ = _
        rw [hb]
        rfl
    exact key _ fun e he => hperm.mem_iff.1 he

theorem stageTo_ok {E : Env} {S : Store} (hS : NoCollision E S) {C : Cas} (hC : C.In S) {i : Info} (hi : Clean E S i)
    (hp : Present E C i) : ∃ N, ∀ n, N ≤ n → ∀ (cwd : List Str) (out : Str) (W : List Str → Info → Prop) (fs : FS),
      Output cwd out (resolve cwd out) → Flat W → (∀ p j, Files E S (resolve cwd out) i p j → W p j) → Space W fs →
      ∃ fs', stageTo E C n cwd out i fs = .ok (true, fs') := by
  by_cases ht : i.type = .tree
  · obtain ⟨N, hN⟩ := leafs_ok hC.ord hp ht
    refine ⟨N, fun n hn cwd out W fs hO hf hW hs => ?_⟩
    obtain ⟨L, hL, ha⟩ := hN n hn out
    have hI : i = ⟨.tree, i.id⟩ := by
      cases i
      cases ht
      rfl
    obtain ⟨h1, h2⟩ := leafs_spec hS hC cwd n out i.id L (hI ▸ hi) hL
    rw [← hI] at h2
    obtain ⟨fs', h⟩ := stageBlobs_ok hf L fs h1 ha (fun x hx => hW _ _ ((h2 _ _).1 ⟨x, hx, rfl, rfl⟩)) hs
    refine ⟨fs', ?_⟩
    unfold stageTo
    rw [if_pos ht, hL]
    dsimp only
    rw [h]
  · refine ⟨0, fun n _ cwd out W fs hO hf hW hs => ?_⟩
    have hw : W (resolve cwd out) i := hW _ _ ((files_leaf ht _ _ _).2 ⟨rfl, rfl⟩)
    have ha : Available C i := by
      cases hp with
      | blob _ h1 h2 => exact ⟨_, h1, h2⟩
      | tree => exact absurd rfl ht
    obtain ⟨fs', h⟩ := stageBlob_ok hO ha (fs := fs) (fun k r e hr => hs.dirs k r i hr (e ▸ hw)) (hs.files _ i hw)
    refine ⟨fs', ?_⟩
    unfold stageTo
    rw [if_neg ht, h]

theorem retrieve_ok {E : Env} {S : Store} (hS : NoCollision E S) {C : Cas} (hC : C.In S) (git : Option Cas) {cwd : List Str}
    {W : List Str → Info → Prop} (hf : Flat W) : ∀ (L : List (Str × Info)), Outs cwd L → (∀ x ∈ L, Clean E S x.2) →
      (∀ x ∈ L, Present E C x.2) → (∀ x ∈ L, ∀ p j, Files E S (resolve cwd x.1) x.2 p j → W p j) →
      ∃ N, ∀ n, N ≤ n → ∀ fs, Space W fs → ∃ fs', retrieveToPaths E C git n cwd L fs = .ok (true, fs')
  | [], _, _, _, _ => ⟨0, fun _ _ fs _ => ⟨fs, rfl⟩⟩
  | (out, i) :: L, ho, hc, hp, hw => by
    have hO := ho (out, i) (by simp)
    obtain ⟨N, hN⟩ := stageTo_ok hS hC (hc (out, i) (by simp)) (hp (out, i) (by simp))
    obtain ⟨M, hM⟩ := retrieve_ok hS hC git hf L (fun x hx => ho x (by simp [hx])) (fun x hx => hc x (by simp [hx]))
      (fun x hx => hp x (by simp [hx])) (fun x hx => hw x (by simp [hx]))
    refine ⟨N + M, fun n hn fs hs => ?_⟩
    obtain ⟨fs1, h1⟩ := hN n (by omega) cwd out W fs hO hf (hw (out, i) (by simp)) hs
    have he := (stageTo_spec hS hC hO (hc (out, i) (by simp)) h1).2 rfl
    rw [retrieveToPaths, h1]
    exact hM n (by omega) fs1 (hs.after hf (hw (out, i) (by simp)) he)

theorem installed_flat {E : Env} {S : Store} {X : List (List Str × Info)} (h : Plan E S X) (base : List Str) :
    Flat (Installed E S base X) := by
  rintro p q i j hq ⟨a, rfl, ha⟩ ⟨b, e, hb⟩
  rw [List.append_assoc] at e
  rw [← List.append_cancel_left e] at hb
  exact hq (fileAt_unique h ha hb).1

theorem Room.space {E : Env} {S : Store} {X : List (List Str × Info)} {base : List Str} {fs : FS}
    (h : Room E S base X fs) : Space (Installed E S base X) fs where
  dirs := by
    rintro p q i hq ⟨a, e, ha⟩ ty id
    rcases List.prefix_or_prefix_of_prefix (l₁ := p) (l₂ := base) ⟨q, rfl⟩ ⟨a, e.symm⟩ with hp | ⟨r, rfl⟩
    · exact h.top p hp ty id
    · rw [List.append_assoc] at e
      rw [← List.append_cancel_left e] at ha
      exact h.dirs r q _ _ hq ha ty id
  files := by
    rintro p i ⟨a, rfl, ha⟩
    exact h.files a _ _ ha

/-- **C80.** If everything is in the local CAS and nothing is in the way, then installing succeeds. -/
theorem C80_success {E : Env} {S : Store} (hS : NoCollision E S) {C : Cas} (hC : C.In S) (git : Option Cas)
    {cwd : List Str} {dir : Str} {X : List (List Str × Info)} (h : Plan E S X) (hp : ∀ x ∈ X, Present E C x.2) {fs : FS}
    (hr : Room E S (resolve cwd dir) X fs) :
    ∃ N, ∀ n, N ≤ n → ∃ fs', install E C git n cwd dir (request X) fs = .ok (true, fs') := by
  obtain ⟨g1, g2, g3⟩ := request_outs h cwd dir
  obtain ⟨N, hN⟩ := retrieve_ok hS hC git (installed_flat h (resolve cwd dir)) _ g1 g2 (by
    intro y hy
    unfold request at hy
    rw [List.map_map, List.mem_map] at hy
    obtain ⟨x, hx, rfl⟩ := hy
    exact hp x hx) (fun x hx p j hj => (g3 p j).1 ⟨x, hx, hj⟩)
  refine ⟨N, fun n hn => ?_⟩
  unfold install
  have hm := mkdirs_ok (resolve cwd dir) [] fs fun k hk _ => hr.top k hk
  cases hmk : mkdirs [] (resolve cwd dir) fs with
  | mk b fs1 =>
    have hs := mkdirs_soft (resolve cwd dir) [] fs
    rw [hmk] at hm hs
    cases hm
    refine hN n hn fs1 ⟨fun p q i hq hi ty id e => ?_, fun p i hi e => ?_⟩
    · rcases hs p with e' | ⟨_, _, _, _, _, e'⟩
      · exact hr.space.dirs p q i hq hi ty id (e'.symm.trans e)
      · rw [e'] at e
        cases e
    · rcases hs p with e' | ⟨k, _, ⟨r, hk⟩, e', hn', _⟩
      · exact hr.space.files p i hi (e'.symm.trans e)
      · obtain ⟨a, ha, x, hx, q, rfl, _⟩ := hi
        rw [List.nil_append] at e'
        have := congrArg List.length hk
        have h2 := congrArg List.length ha
        rw [e'] at h2
        have := List.length_pos_of_ne_nil (h.nonempty x hx)
        simp only [List.length_append] at *
        omega

/-- **C80.** Installing again succeeds, and changes nothing. -/
theorem C80_again {E : Env} {S : Store} (hS : NoCollision E S) {C : Cas} (hC : C.In S) {git : Option Cas}
    (hG : ∀ G ∈ git, G.In S) {n : Nat} {cwd : List Str} {dir : Str} {X : List (List Str × Info)} (h : Plan E S X)
    (hp : ∀ x ∈ X, Present E C x.2) {fs fs' : FS} (hi : install E C git n cwd dir (request X) fs = .ok (true, fs')) :
    ∃ N, ∀ m, N ≤ m → ∃ fs'', install E C git m cwd dir (request X) fs' = .ok (true, fs'') ∧ ∀ p, fs''.at p = fs'.at p := by
  obtain ⟨h1, h2, h3, _⟩ := C80_files hS hC hG h hi
  obtain ⟨N, hN⟩ := C80_success hS hC git h hp (fs := fs') (cwd := cwd) (dir := dir)
    ⟨fun p hp ty id e => (nomatch (h3 p hp).symm.trans e),
     fun p q ty id hq hf ty' id' e => (nomatch (h2 p q ty id hq hf).symm.trans e),
     fun p ty id hf e => (nomatch (h1 p ty id hf).symm.trans e)⟩
  refine ⟨N, fun m hm => ?_⟩
  obtain ⟨fs'', hi'⟩ := hN m hm
  obtain ⟨g1, g2, g3, g4⟩ := C80_files hS hC hG h hi'
  refine ⟨fs'', hi', fun p => ?_⟩
  by_cases hb : p <+: resolve cwd dir
  · rw [g3 p hb, h3 p hb]
  · by_cases hw : ∃ q r ty id, p ++ q = resolve cwd dir ++ r ∧ FileAt E S X r ty id
    · obtain ⟨q, r, ty, id, e, hf⟩ := hw
      rcases List.prefix_or_prefix_of_prefix (l₁ := p) (l₂ := resolve cwd dir) ⟨q, rfl⟩ ⟨r, e.symm⟩ with hp | ⟨a, rfl⟩
      · exact absurd hp hb
      · rw [List.append_assoc] at e
        rw [← List.append_cancel_left e] at hf
        by_cases hq : q = []
        · subst hq
          rw [List.append_nil] at hf
          rw [g1 a _ _ hf, h1 a _ _ hf]
        · rw [g2 a q _ _ hq hf, h2 a q _ _ hq hf]
    · exact g4 p hb fun q r ty id e hf => hw ⟨q, r, ty, id, e, hf⟩

end Verif.Install
