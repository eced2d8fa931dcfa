import Verif.AddCas.Chase
import Verif.Path.Props

/-!
# Adding files and directories to the CAS: directories
-/

namespace Verif.AddCas

open Verif Verif.Path
open Verif.Dig (ObjectType)
open Verif.Roots (Name entries lookIn)
open Verif.Symlinks (Good eq_nil_or_snoc)
open Verif.Tree (Info Obs Env Groups Listing NoCollision look flat addTo createTree)

/-! ## The disk -/

/-- What is read from the CAS has the identifier asked for. -/
def Sound (W : World) (d : Disk) : Prop := ∀ x id c, d.blob x id = some c → W.H c = id

/-- What is never lost. -/
structure Mono (W : World) (d d' : Disk) : Prop where
  trees : ∀ c ∈ d.trees, c ∈ d'.trees
  blobs : ∀ x id, (assoc id (d.blobs x)).isSome → (assoc id (d'.blobs x)).isSome
  content : ∀ j, (d'.inode j).content = (d.inode j).content
  exec : ∀ j, (d'.inode j).exec = (d.inode j).exec
  sound : Sound W d → Sound W d'

variable {W : World}

theorem Mono.refl (d : Disk) : Mono W d d := ⟨fun _ h => h, fun _ _ h => h, fun _ => rfl, fun _ => rfl, fun h => h⟩

theorem Mono.trans {d e f : Disk} (h : Mono W d e) (h' : Mono W e f) : Mono W d f :=
  ⟨fun c hc => h'.trees c (h.trees c hc), fun x id hi => h'.blobs x id (h.blobs x id hi),
    fun j => (h'.content j).trans (h.content j), fun j => (h'.exec j).trans (h.exec j), fun hs => h'.sound (h.sound hs)⟩

theorem blobs_enter (d : Disk) (x : Bool) (id : Str) (s : Source) (y : Bool) (id' : Str) :
    assoc id' ((d.enter x id s).blobs y) = if y = x ∧ id' = id then some s else assoc id' (d.blobs y) := by
  unfold Disk.enter
  dsimp only
  by_cases hy : y = x
  · rw [if_pos hy, assoc]
    by_cases hi : id' = id
    · rw [if_pos hi, if_pos ⟨hy, hi⟩]
    · rw [if_neg hi, if_neg fun h => hi h.2]
  · rw [if_neg hy, if_neg fun h => hy h.1]

theorem enter_blobs {d : Disk} {x : Bool} {id : Str} {s : Source} (y : Bool) (id' : Str)
    (h : (assoc id' (d.blobs y)).isSome) : (assoc id' ((d.enter x id s).blobs y)).isSome := by
  rw [blobs_enter]
  split
  · rfl
  · exact h

theorem touch_content (d : Disk) (i : Nat) (x : Bool) (j : Nat) : ((d.touch i x).inode j).content = (d.inode j).content := by
  unfold Disk.touch
  dsimp only
  split
  · rename_i e
    rw [e]
  · rfl

theorem touch_exec (d : Disk) (i j : Nat) : ((d.touch i (d.inode i).exec).inode j).exec = (d.inode j).exec := by
  unfold Disk.touch
  dsimp only
  split
  · rename_i e
    rw [e]
  · rfl

theorem blob_touch (d : Disk) (i : Nat) (x y : Bool) (id : Str) : (d.touch i x).blob y id = d.blob y id := by
  unfold Disk.blob
  have : (d.touch i x).blobs = d.blobs := rfl
  rw [this]
  cases assoc id (d.blobs y) with
  | none => rfl
  | some s =>
    cases s with
    | own c => rfl
    | linked j => exact congrArg some (touch_content d i x j)

theorem sound_enter {d : Disk} (hs : Sound W d) {x : Bool} {s : Source}
    {c : Str} (hc : (match s with | .own c => c | .linked i => (d.inode i).content) = c) : Sound W (d.enter x (W.H c) s) := by
  intro y id c' h
  unfold Disk.blob at h
  rw [blobs_enter] at h
  split at h
  · rename_i e
    rw [e.2]
    rw [Option.map_some] at h
    injection h with h
    rw [← h, ← hc]
    cases s <;> rfl
  · exact hs y id c' h

theorem storeOwned_spec {i : Nat} {d d' : Disk} {id : Str} (h : storeOwned W i (d.inode i).exec d = (some id, d')) :
    Mono W d d' ∧ id = W.H (d.inode i).content ∧ (assoc id (d'.blobs (d.inode i).exec)).isSome := by
  unfold storeOwned at h
  split at h
  · rename_i h1
    injection h with e1 e2
    injection e1 with e1
    subst e1 e2
    exact ⟨.refl _, rfl, h1⟩
  · split at h
    · injection h with e1
      cases e1
    · split at h
      · injection h with e1
        cases e1
      · injection h with e1 e2
        injection e1 with e1
        subst e1 e2
        refine ⟨⟨fun c hc => hc, fun y id' hi => enter_blobs y id' hi, fun j => touch_content d i _ j, fun j => touch_exec d i j,
          fun hs => ?_⟩, rfl, ?_⟩
        · have h1 : Sound W (d.touch i (d.inode i).exec) := fun y id c hc => hs y id c (by rw [← hc]; exact (blob_touch d i _ y id).symm)
          exact sound_enter (s := .linked i) h1 (touch_content d i _ i)
        · rw [blobs_enter, if_pos ⟨rfl, rfl⟩]
          rfl

theorem storeCopy_spec (x : Bool) (c : Str) (d : Disk) : Mono W d (storeCopy W x c d).2 ∧ (storeCopy W x c d).1 = W.H c ∧
    (assoc (W.H c) ((storeCopy W x c d).2.blobs x)).isSome := by
  unfold storeCopy
  split
  · rename_i h
    exact ⟨.refl _, rfl, h⟩
  · refine ⟨⟨fun c hc => hc, fun y id' hi => enter_blobs y id' hi, fun j => rfl, fun j => rfl, fun hs => sound_enter (s := .own c) hs rfl⟩, rfl, ?_⟩
    rw [blobs_enter, if_pos ⟨rfl, rfl⟩]
    rfl

theorem storeTree_spec (c : Str) (d : Disk) : Mono W d (storeTree W c d).2 ∧ (storeTree W c d).1 = W.T c ∧
    c ∈ (storeTree W c d).2.trees := by
  unfold storeTree
  dsimp only
  split
  · rename_i h
    exact ⟨.refl _, rfl, h⟩
  · exact ⟨⟨fun x hx => List.mem_cons_of_mem _ hx, fun y id' hi => hi, fun j => rfl, fun j => rfl, fun hs => hs⟩, rfl, List.mem_cons_self⟩

/-! ## Showing -/

section

variable {I : Nat → Inode} {P : List Str → Prop}

theorem shows_file {D : List Str} {n : Str} {i : Nat} (h : W.fs.find (D ++ [n]) = some (.file i)) (q : List Str) (o : Obs) :
    Shows W I P D (n :: q) o ↔ q = [] ∧ o = .leaf (typeOf (I i).exec) (W.H (I i).content) := by
  constructor
  · intro hs
    cases hs with
    | file h' =>
      rw [h] at h'
      cases h'
      exact ⟨rfl, rfl⟩
    | down h' => rw [h] at h'; cases h'
    | keep h' => rw [h] at h'; cases h'
    | linkFile h' => rw [h] at h'; cases h'
    | linkDir h' => rw [h] at h'; cases h'
  · rintro ⟨rfl, rfl⟩
    exact .file h

theorem shows_dir {D : List Str} {n : Str} {es : List (Str × Node)} (h : W.fs.find (D ++ [n]) = some (.dir es)) (q : List Str) (o : Obs) :
    Shows W I P D (n :: q) o ↔ Shows W I P (D ++ [n]) q o := by
  constructor
  · intro hs
    cases hs with
    | file h' => rw [h] at h'; cases h'
    | down _ hs => exact hs
    | keep h' => rw [h] at h'; cases h'
    | linkFile h' => rw [h] at h'; cases h'
    | linkDir h' => rw [h] at h'; cases h'
  · exact fun hs => .down h hs

theorem shows_none {D : List Str} {n : Str} (h : W.fs.find (D ++ [n]) = none) (q : List Str) (o : Obs) :
    ¬ Shows W I P D (n :: q) o := by
  intro hs
  cases hs with
  | file h' => rw [h] at h'; cases h'
  | down h' => rw [h] at h'; cases h'
  | keep h' => rw [h] at h'; cases h'
  | linkFile h' => rw [h] at h'; cases h'
  | linkDir h' => rw [h] at h'; cases h'

theorem shows_special {D : List Str} {n : Str} (h : W.fs.find (D ++ [n]) = some .special) (q : List Str) (o : Obs) :
    ¬ Shows W I P D (n :: q) o := by
  intro hs
  cases hs with
  | file h' => rw [h] at h'; cases h'
  | down h' => rw [h] at h'; cases h'
  | keep h' => rw [h] at h'; cases h'
  | linkFile h' => rw [h] at h'; cases h'
  | linkDir h' => rw [h] at h'; cases h'

theorem not_kept_followed {t : Str} (hk : Kept W.mode t) (hf : Followed W.mode t) : False := by
  rcases hk with ⟨h | h, hn⟩ <;> rw [h] at hf <;> rcases hf with h | h | ⟨h, h'⟩ <;> first | exact h' hn | cases h

theorem shows_keep {D : List Str} {n t : Str} (h : W.fs.find (D ++ [n]) = some (.link t)) (hk : Kept W.mode t) (q : List Str) (o : Obs) :
    Shows W I P D (n :: q) o ↔ q = [] ∧ o = .leaf .symlink (W.H t) := by
  constructor
  · intro hs
    cases hs with
    | file h' => rw [h] at h'; cases h'
    | down h' => rw [h] at h'; cases h'
    | keep h' =>
      rw [h] at h'
      cases h'
      exact ⟨rfl, rfl⟩
    | linkFile h' hf =>
      rw [h] at h'
      cases h'
      exact (not_kept_followed hk hf).elim
    | linkDir h' hf =>
      rw [h] at h'
      cases h'
      exact (not_kept_followed hk hf).elim
  · rintro ⟨rfl, rfl⟩
    exact .keep h hk

theorem shows_linkFile {D r : List Str} {n t : Str} {i : Nat} (h : W.fs.find (D ++ [n]) = some (.link t)) (hf : Followed W.mode t)
    (hr : ∀ r', Resolves W.fs (D ++ [n]) r' ↔ r' = r) (hp : P r) (hi : W.fs.find r = some (.file i)) (q : List Str) (o : Obs) :
    Shows W I P D (n :: q) o ↔ q = [] ∧ o = .leaf (typeOf (I i).exec) (W.H (I i).content) := by
  constructor
  · intro hs
    cases hs with
    | file h' => rw [h] at h'; cases h'
    | down h' => rw [h] at h'; cases h'
    | keep h' hk =>
      rw [h] at h'
      cases h'
      exact (not_kept_followed hk hf).elim
    | linkFile h' _ hr' _ hi' =>
      rw [(hr _).1 hr', hi] at hi'
      cases hi'
      exact ⟨rfl, rfl⟩
    | linkDir h' _ hr' _ hi' =>
      rw [(hr _).1 hr', hi] at hi'
      cases hi'
  · rintro ⟨rfl, rfl⟩
    exact .linkFile h hf ((hr r).2 rfl) hp hi

theorem shows_linkDir {D r : List Str} {n t : Str} {es : List (Str × Node)} (h : W.fs.find (D ++ [n]) = some (.link t))
    (hf : Followed W.mode t) (hr : ∀ r', Resolves W.fs (D ++ [n]) r' ↔ r' = r) (hp : P r) (hi : W.fs.find r = some (.dir es))
    (q : List Str) (o : Obs) : Shows W I P D (n :: q) o ↔ Shows W I P r q o := by
  constructor
  · intro hs
    cases hs with
    | file h' => rw [h] at h'; cases h'
    | down h' => rw [h] at h'; cases h'
    | keep h' hk =>
      rw [h] at h'
      cases h'
      exact (not_kept_followed hk hf).elim
    | linkFile h' _ hr' _ hi' =>
      rw [(hr _).1 hr', hi] at hi'
      cases hi'
    | linkDir h' _ hr' _ hi' hs =>
      rw [(hr _).1 hr'] at hs
      exact hs
  · exact fun hs => .linkDir h hf ((hr r).2 rfl) hp hi hs

/-! ## Objects -/

/-- The file is in the CAS. -/
def Avail (d : Disk) : Obs → Prop
  | .dir => True
  | .leaf ty id => ∃ x, ty ≠ .tree ∧ (x = true ↔ ty = .executable) ∧ (assoc id (d.blobs x)).isSome

theorem Avail.mono {d d' : Disk} (h : Mono W d d') : ∀ {o : Obs}, Avail d o → Avail d' o
  | .dir, _ => trivial
  | .leaf _ _, ⟨x, h0, h1, h2⟩ => ⟨x, h0, h1, h.blobs x _ h2⟩

theorem typeOf_spec (x : Bool) : typeOf x ≠ .tree ∧ (x = true ↔ typeOf x = .executable) := by
  cases x <;> decide

/-- An object shows what it is to show, what it consists of is there, and everything at the path is shown, unless that is to be
ignored. -/
structure OK (W : World) (E : Env) (d : Disk) (i : Info) (p : List Str) (R : List Str → Obs → Prop) : Prop where
  len : i.id.length = 20
  shows : ∀ S, NoCollision E S → (∀ c ∈ d.trees, c ∈ S) → ∀ q o, look E S i q = some o ↔ R q o
  avail : ∀ q o, R q o → Avail d o
  all : W.mode ≠ some .ignore → ∀ q, (W.fs.find (p ++ q)).isSome → ∃ o, R q o

variable {E : Env}

theorem OK.mono {d d' : Disk} (h : Mono W d d') {i : Info} {p : List Str} {R : List Str → Obs → Prop} (ho : OK W E d i p R) :
    OK W E d' i p R :=
  ⟨ho.len, fun S hS hc => ho.shows S hS fun c hm => hc c (h.trees c hm), fun q o hr => (ho.avail q o hr).mono h, ho.all⟩

theorem OK.congr {d : Disk} {i : Info} {p p' : List Str} {R R' : List Str → Obs → Prop} (ho : OK W E d i p R)
    (h : ∀ q o, R' q o ↔ R q o) (ha : ∀ q, (W.fs.find (p' ++ q)).isSome → (W.fs.find (p ++ q)).isSome) : OK W E d i p' R' :=
  ⟨ho.len, fun S hS hc q o => (ho.shows S hS hc q o).trans (h q o).symm, fun q o hr => ho.avail q o ((h q o).1 hr),
    fun hm q hq => (ho.all hm q (ha q hq)).imp fun o => (h q o).2⟩

theorem find_end {n : Node} {p q : List Str} {m : Node} (h : n.find p = some m) (hm : ∀ es, m ≠ .dir es)
    (hq : (n.find (p ++ q)).isSome) : q = [] := by
  refine Classical.byContradiction fun hne => ?_
  obtain ⟨k, hk⟩ := Option.isSome_iff_exists.1 hq
  obtain ⟨es, hes⟩ := find_dir hne hk
  rw [h] at hes
  injection hes with hes
  exact hm es hes

theorem OK.leaf {d : Disk} {ty : ObjectType} {id : Str} {p : List Str} {m : Node} (hm : W.fs.find p = some m) (hnd : ∀ es, m ≠ .dir es)
    (hl : id.length = 20) (ha : Avail d (.leaf ty id)) {R : List Str → Obs → Prop} (hR : ∀ q o, R q o ↔ q = [] ∧ o = .leaf ty id) :
    OK W E d ⟨ty, id⟩ p R := by
  have hty : ty ≠ .tree := ha.elim fun _ h => h.1
  refine ⟨hl, fun S _ _ q o => ?_, fun q o hr => ?_, fun _ q hq => ⟨_, (hR q _).2 ⟨find_end hm hnd hq, rfl⟩⟩⟩
  · rw [hR]
    cases q with
    | nil =>
      rw [look, if_neg hty]
      constructor
      · intro h
        injection h with h
        exact ⟨rfl, h.symm⟩
      · rintro ⟨_, rfl⟩
        rfl
    | cons a q =>
      rw [look, if_neg hty]
      constructor
      · intro h
        cases h
      · rintro ⟨h, _⟩
        cases h
  · rw [((hR q o).1 hr).2]
    exact ha

/-- What is known is right, and files have not changed. -/
structure State (W : World) (E : Env) (root : List Str) (I : Nat → Inode) (P : List Str → Prop) (d : Disk) (k : Known) : Prop where
  known : ∀ x ∈ k, ∀ D n, full root x.1 = D ++ [n] → OK W E d x.2 (D ++ [n]) fun q o => Shows W I P D (n :: q) o
  content : ∀ j, (d.inode j).content = (I j).content
  exec : ∀ j, (d.inode j).exec = (I j).exec

theorem State.mono {root : List Str} {d d' : Disk} {k : Known} (hs : State W E root I P d k) (h : Mono W d d') :
    State W E root I P d' k :=
  ⟨fun x hx D n e => (hs.known x hx D n e).mono h, fun j => (h.content j).trans (hs.content j), fun j => (h.exec j).trans (hs.exec j)⟩

theorem State.add {root : List Str} {d : Disk} {k : Known} (hs : State W E root I P d k) {rel : Key} {i : Info}
    (h : ∀ D n, full root rel = D ++ [n] → OK W E d i (D ++ [n]) fun q o => Shows W I P D (n :: q) o) :
    State W E root I P d (k ++ [(rel, i)]) :=
  ⟨fun x hx D n e => by
    rcases List.mem_append.1 hx with hx | hx
    · exact hs.known x hx D n e
    · rw [List.mem_singleton.1 hx] at e ⊢
      exact h D n e, hs.content, hs.exec⟩

theorem keeps_iff {t : Str} (ht : t ≠ []) : keeps W.mode t = true ↔ Kept W.mode t := by
  obtain ⟨b, h1, h2⟩ := C40_non_upwards_partial t ht
  unfold keeps Kept NonUpwards
  rw [← h2, h1, Bool.and_eq_true, Bool.or_eq_true, beq_iff_eq, beq_iff_eq, beq_iff_eq]
  constructor
  · rintro ⟨h, h'⟩
    injection h' with h'
    exact ⟨h, h'⟩
  · rintro ⟨h, h'⟩
    exact ⟨h, congrArg _ h'⟩

theorem assoc_known {r : Key} {i : Info} : ∀ {k : Known}, assoc r k = some i → (r, i) ∈ k
  | (k', v') :: t, h => by
    rw [assoc] at h
    split at h
    · rename_i e
      cases h
      rw [e]
      exact List.mem_cons_self
    · exact List.mem_cons_of_mem _ (assoc_known h)

/-- The import of a directory does what it is to do. -/
def DirSpec (W : World) (E : Env) (root : List Str) (I : Nat → Inode) (P : List Str → Prop) (sub : Key → Disk → Known → Res Str) : Prop :=
  ∀ rel d k id d' k' es, sub rel d k = .ok id d' k' → W.fs.find (full root rel) = some (.dir es) → KeyOK W root rel →
    State W E root I P d k → State W E root I P d' k' ∧ Mono W d d' ∧
      OK W E d' ⟨.tree, id⟩ (full root rel) (Shows W I P (full root rel))

variable {root : List Str}

theorem treat_spec (hH : ∀ s, (W.H s).length = 20) (hP : ∀ r, W.mode = some .all ∨ root <+: r → P r)
    {sub : Key → Disk → Known → Res Str} (hsub : DirSpec W E root I P sub) {orig rel : Key} {node : Node} {d d' : Disk} {k k' : Known}
    {i : Info} {D : List Str} {n : Str} (h : treat W sub orig rel d k node = .ok i d' k')
    (hf : W.fs.find (full root rel) = some node) (hk : KeyOK W root rel) (ho : full root orig = D ++ [n])
    (hor : orig = rel ∨ ∃ t, W.fs.find (D ++ [n]) = some (.link t) ∧ Followed W.mode t ∧
      ∀ r, Resolves W.fs (D ++ [n]) r ↔ r = full root rel)
    (hs : State W E root I P d k) :
    State W E root I P d' k' ∧ Mono W d d' ∧ OK W E d' i (D ++ [n]) fun q o => Shows W I P D (n :: q) o := by
  cases node with
  | special => cases h
  | link t => cases h
  | dir es =>
    rw [treat] at h
    cases hsu : sub rel d k with
    | fail => rw [hsu] at h; cases h
    | more => rw [hsu] at h; cases h
    | ok id d1 k1 =>
      rw [hsu] at h
      injection h with e1 e2 e3
      subst e1 e2 e3
      obtain ⟨h1, h2, h3⟩ := hsub rel d k id d1 k1 es hsu hf hk hs
      have hself : ∀ D' n', full root rel = D' ++ [n'] →
          OK W E d1 ⟨.tree, id⟩ (D' ++ [n']) fun q o => Shows W I P D' (n' :: q) o := by
        intro D' n' e
        rw [e] at h3 hf
        exact h3.congr (fun q o => shows_dir hf q o) fun q hq => hq
      have horig : OK W E d1 ⟨.tree, id⟩ (D ++ [n]) fun q o => Shows W I P D (n :: q) o := by
        rcases hor with e | ⟨t, g1, g2, g3⟩
        · exact hself D n (e ▸ ho)
        · refine h3.congr (fun q o => shows_linkDir g1 g2 g3 (hP _ hk.2) hf q o) fun q hq => ?_
          rw [find_end g1 (by intro es e; cases e) hq, List.append_nil, hf]
          rfl
      refine ⟨?_, h2, horig⟩
      have := (h1.add hself).add (rel := orig) (i := ⟨.tree, id⟩) fun D' n' e => by
        rw [ho] at e
        obtain ⟨rfl, e2⟩ := List.append_inj' e rfl
        injection e2 with e2
        subst e2
        exact horig
      rw [List.append_assoc] at this
      exact this
  | file j =>
    rw [treat] at h
    cases hst : storeOwned W j (d.inode j).exec d with
    | mk a d1 =>
      rw [hst] at h
      cases a with
      | none => cases h
      | some id =>
        injection h with e1 e2 e3
        subst e1 e2 e3
        obtain ⟨h1, h2, h3⟩ := storeOwned_spec hst
        subst h2
        have hs1 := hs.mono h1
        have hav : Avail d1 (.leaf (typeOf (d.inode j).exec) (W.H (d.inode j).content)) :=
          ⟨(d.inode j).exec, (typeOf_spec _).1, (typeOf_spec _).2, h3⟩
        have hself : ∀ D' n', full root rel = D' ++ [n'] →
            OK W E d1 ⟨typeOf (d.inode j).exec, W.H (d.inode j).content⟩ (D' ++ [n']) fun q o => Shows W I P D' (n' :: q) o := by
          intro D' n' e
          rw [e] at hf
          refine .leaf hf (by intro es e; cases e) (hH _) hav fun q o => ?_
          rw [shows_file hf, hs.content, hs.exec]
        have horig : OK W E d1 ⟨typeOf (d.inode j).exec, W.H (d.inode j).content⟩ (D ++ [n]) fun q o => Shows W I P D (n :: q) o := by
          rcases hor with e | ⟨t, g1, g2, g3⟩
          · exact hself D n (e ▸ ho)
          · refine .leaf g1 (by intro es e; cases e) (hH _) hav fun q o => ?_
            rw [shows_linkFile g1 g2 g3 (hP _ hk.2) hf, hs.content, hs.exec]
        refine ⟨?_, h1, horig⟩
        have := (hs1.add hself).add (rel := orig) (i := ⟨typeOf (d.inode j).exec, W.H (d.inode j).content⟩) fun D' n' e => by
          rw [ho] at e
          obtain ⟨rfl, e2⟩ := List.append_inj' e rfl
          injection e2 with e2
          subst e2
          exact horig
        rw [List.append_assoc] at this
        exact this

theorem item_spec (hH : ∀ s, (W.H s).length = 20) (hp : Proper W.fs) {es0 : List (Str × Node)} (hroot : W.fs.find root = some (.dir es0))
    (hl : PlainFor W root) (hP : ∀ r, W.mode = some .all ∨ root <+: r → P r) {m : Nat} {sub : Key → Disk → Known → Res Str}
    (hsub : DirSpec W E root I P sub) {rel : Key} {node : Node} {d d' : Disk} {k k' : Known} {i : Info} {D : List Str} {n : Str}
    (h : item W root m sub rel node d k = .ok i d' k') (hns : skipped W.mode node = false)
    (hf : W.fs.find (full root rel) = some node) (hk : KeyOK W root rel) (ho : full root rel = D ++ [n])
    (hs : State W E root I P d k) :
    State W E root I P d' k' ∧ Mono W d d' ∧ OK W E d' i (D ++ [n]) fun q o => Shows W I P D (n :: q) o := by
  unfold item at h
  cases ha : assoc rel k with
  | some i' =>
    rw [ha] at h
    injection h with e1 e2 e3
    subst e1 e2 e3
    exact ⟨hs, .refl _, hs.known _ (assoc_known ha) D n ho⟩
  | none =>
    rw [ha] at h
    dsimp only at h
    cases node with
    | link t =>
      dsimp only at h
      have ht : t ≠ [] := by
        have := (hp.find hf).1
        cases this with
        | link h => exact h
      have hf' := hf
      rw [ho] at hf'
      by_cases hke : keeps W.mode t = true
      · rw [if_pos hke] at h
        injection h with e1 e2 e3
        subst e1 e2 e3
        obtain ⟨h1, h2, h3⟩ := storeCopy_spec (W := W) false t d
        rw [h2]
        have hok : OK W E (storeCopy W false t d).2 ⟨.symlink, W.H t⟩ (D ++ [n]) fun q o => Shows W I P D (n :: q) o :=
          .leaf hf' (by intro es e; cases e) (hH _) ⟨false, by decide, by decide, h3⟩ fun q o =>
            shows_keep hf' ((keeps_iff ht).1 hke) q o
        refine ⟨(hs.mono h1).add fun D' n' e => ?_, h1, hok⟩
        rw [ho] at e
        obtain ⟨rfl, e2⟩ := List.append_inj' e rfl
        injection e2 with e2
        subst e2
        exact hok
      · rw [if_neg hke] at h
        by_cases hm : W.mode = none
        · rw [if_pos hm] at h
          cases h
        · rw [if_neg hm] at h
          have hig : W.mode ≠ some .ignore := by
            intro e
            unfold skipped at hns
            rw [e] at hns
            cases hns
          have hpl : Plain W.fs (if W.mode = some .all then [] else root) := by
            rcases hl with e | e | e
            · exact absurd e hm
            · exact absurd e hig
            · exact e
          have hfo : Followed W.mode t := by
            unfold Followed
            rw [keeps_iff ht] at hke
            unfold Kept at hke
            cases hmm : W.mode with
            | none => exact absurd hmm hm
            | some md =>
              cases md with
              | ignore => exact absurd hmm hig
              | all => exact Or.inl rfl
              | treeAll => exact Or.inr (Or.inl rfl)
              | treeUpwards => exact Or.inr (Or.inr ⟨rfl, fun hn => hke ⟨Or.inr hmm, hn⟩⟩)
          cases hc : chase W root m rel (full root rel) [rel] with
          | fail => rw [hc] at h; cases h
          | more => rw [hc] at h; cases h
          | «to» rel' node' =>
            rw [hc] at h
            obtain ⟨c1, c2, c3, c4⟩ := chase_spec hp hroot hm hig hpl m rel [rel] t rel' node' hf hk hc
            rw [ho] at c4
            exact treat_spec hH hP hsub h c1 c3 ho (Or.inr ⟨t, hf', hfo, c4⟩) hs
    | file j => exact treat_spec hH hP hsub h hf hk ho (Or.inl rfl) hs
    | dir es => exact treat_spec hH hP hsub h hf hk ho (Or.inl rfl) hs
    | special => exact treat_spec hH hP hsub h hf hk ho (Or.inl rfl) hs

/-- The entries of a directory. -/
theorem importGo_spec (hp : Proper W.fs) {it : Key → Node → Disk → Known → Res Info} {rel : Key} (hk : KeyOK W root rel) {D : List Str}
    (hD : full root rel = D)
    (hit : ∀ (name : Str) (node : Node) (d d' : Disk) (k k' : Known) (i : Info), it (rel ++ [name]) node d k = .ok i d' k' →
      skipped W.mode node = false → W.fs.find (D ++ [name]) = some node → State W E root I P d k →
      State W E root I P d' k' ∧ Mono W d d' ∧ OK W E d' i (D ++ [name]) fun q o => Shows W I P D (name :: q) o) :
    ∀ (l : List (Str × Node)) (g g' : Groups) (d d' : Disk) (k k' : Known), importGo W.mode it rel l g d k = .ok g' d' k' →
      (∀ x ∈ l, W.fs.find (D ++ [x.1]) = some x.2) → (l.map Prod.fst).Nodup → Listing (flat g) →
      (∀ x ∈ l, Tree.get x.1 (entries g) = none) → State W E root I P d k →
      State W E root I P d' k' ∧ Mono W d d' ∧ Listing (flat g') ∧
        (∀ m, m ∉ l.map Prod.fst → Tree.get m (entries g') = Tree.get m (entries g)) ∧
        ∀ x ∈ l, (skipped W.mode x.2 = true ∧ Tree.get x.1 (entries g') = none) ∨
          skipped W.mode x.2 = false ∧ ∃ i, Tree.get x.1 (entries g') = some i ∧
            OK W E d' i (D ++ [x.1]) fun q o => Shows W I P D (x.1 :: q) o
  | [], g, g', d, d', k, k', h, _, _, hg, _, hs => by
    rw [importGo] at h
    injection h with e1 e2 e3
    subst e1 e2 e3
    exact ⟨hs, .refl _, hg, fun _ _ => rfl, fun x hx => (nomatch hx)⟩
  | (name, node) :: l, g, g', d, d', k, k', h, hl, hnd, hg, hab, hs => by
    rw [List.map_cons, List.nodup_cons] at hnd
    have hat := hl (name, node) (by simp)
    have hname : Name name := (hp.find hat).2 name (by simp)
    rw [importGo] at h
    by_cases hsk : skipped W.mode node = true
    · rw [if_pos hsk] at h
      obtain ⟨h1, h2, h3, h4, h5⟩ := importGo_spec hp hk hD hit l g g' d d' k k' h (fun x hx => hl x (by simp [hx])) hnd.2 hg
        (fun x hx => hab x (by simp [hx])) hs
      refine ⟨h1, h2, h3, fun m hm => ?_, fun x hx => ?_⟩
      · rw [List.map_cons, List.mem_cons, not_or] at hm
        exact h4 m hm.2
      · rcases List.mem_cons.1 hx with rfl | hx
        · exact Or.inl ⟨hsk, by rw [h4 name hnd.1]; exact hab (name, node) (by simp)⟩
        · exact h5 x hx
    · rw [if_neg hsk] at h
      rw [Bool.not_eq_true] at hsk
      cases hi : it (rel ++ [name]) node d k with
      | fail => rw [hi] at h; cases h
      | more => rw [hi] at h; cases h
      | ok i d1 k1 =>
        rw [hi] at h
        dsimp only at h
        obtain ⟨s1, s2, s3⟩ := hit name node d d1 k k1 i hi hsk hat hs
        have habs := hab (name, node) (by simp)
        obtain ⟨h1, h2, h3, h4, h5⟩ := importGo_spec hp hk hD hit l (addTo i.id (name, i.type) g) g' d1 d' k1 k' h
          (fun x hx => hl x (by simp [hx])) hnd.2 (Roots.listing_addTo hg hname s3.len habs) (fun x hx => by
            have hne : x.1 ≠ name := by
              intro e
              have := List.mem_map_of_mem (f := Prod.fst) hx
              rw [e] at this
              exact hnd.1 this
            rw [Roots.get_addTo hg hname s3.len habs, if_neg hne]
            exact hab x (by simp [hx])) s1
        refine ⟨h1, s2.trans h2, h3, fun m hm => ?_, fun x hx => ?_⟩
        · rw [List.map_cons, List.mem_cons, not_or] at hm
          rw [h4 m hm.2, Roots.get_addTo hg hname s3.len habs, if_neg hm.1]
        · rcases List.mem_cons.1 hx with rfl | hx
          · refine Or.inr ⟨hsk, ⟨i.type, i.id⟩, ?_, s3.mono h2⟩
            rw [h4 name hnd.1, Roots.get_addTo hg hname s3.len habs, if_pos rfl]
          · exact h5 x hx

theorem shows_skipped {D : List Str} {n : Str} {node : Node} (h : W.fs.find (D ++ [n]) = some node) (hs : skipped W.mode node = true)
    (q : List Str) (o : Obs) : ¬ Shows W I P D (n :: q) o := by
  intro hsh
  have hm : ∀ t, node = .link t → W.mode = some .ignore := by
    rintro t rfl
    exact eq_of_beq hs
  cases hsh with
  | file h' => rw [h] at h'; cases h'; cases hs
  | down h' => rw [h] at h'; cases h'; cases hs
  | keep h' hk =>
    rw [h] at h'
    injection h' with h'
    have := hm _ h'
    rcases hk with ⟨e | e, _⟩ <;> rw [this] at e <;> cases e
  | linkFile h' hf =>
    rw [h] at h'
    injection h' with h'
    have := hm _ h'
    rcases hf with e | e | ⟨e, _⟩ <;> rw [this] at e <;> cases e
  | linkDir h' hf =>
    rw [h] at h'
    injection h' with h'
    have := hm _ h'
    rcases hf with e | e | ⟨e, _⟩ <;> rw [this] at e <;> cases e

/-- Importing a directory. -/
theorem importDir_spec (hE : E.H = W.T) (hH : ∀ s, (W.H s).length = 20) (hT : ∀ s, (W.T s).length = 20) (hp : Proper W.fs)
    {es0 : List (Str × Node)} (hroot : W.fs.find root = some (.dir es0)) (hl : PlainFor W root)
    (hP : ∀ r, W.mode = some .all ∨ root <+: r → P r) :
    ∀ (n : Nat) (linked : List Key), DirSpec W E root I P (importDir W root n linked)
  | 0, _ => by
    intro rel d k id d' k' es h
    cases h
  | n + 1, linked => by
    intro rel d k id d' k' es h hf hk hs
    rw [importDir, lstat_find hp hf] at h
    dsimp only at h
    split at h
    · cases h
    · have hsub := importDir_spec hE hH hT hp hroot hl hP n (rel :: linked)
      have hpd := (hp.find hf).1
      cases hpd with
      | dir n1 n2 n3 =>
        cases hg : importGo W.mode (item W root n (importDir W root n (rel :: linked))) rel es [] d k with
        | fail => rw [hg] at h; cases h
        | more => rw [hg] at h; cases h
        | ok g d1 k1 =>
          rw [hg] at h
          injection h with e1 e2 e3
          subst e1 e2 e3
          obtain ⟨h1, h2, h3, h4, h5⟩ := importGo_spec (I := I) (P := P) (E := E) hp hk rfl
            (fun name node d d' k k' i hi hsk hat hs => by
              have hname : Name name := (hp.find hat).2 name (by simp)
              rw [← full_snoc _ _ hname] at hat
              exact item_spec hH hp hroot hl hP hsub hi hsk hat (hk.snoc hname) (full_snoc _ _ hname) hs)
            es [] g d d1 k k1 hg (fun x hx => by rw [find_snoc hf]; exact mem_assoc n2 hx) n2
            ⟨fun e he => (nomatch he), List.nodup_nil⟩ (fun _ _ => rfl) hs
          obtain ⟨t1, t2, t3⟩ := storeTree_spec (W := W) (createTree g) d1
          refine ⟨h1.mono t1, h2.trans t1, ?_⟩
          rw [t2, ← hE]
          have hnone : ∀ a, W.fs.find (full root rel ++ [a]) = none → a ∉ es.map Prod.fst := by
            intro a ha hmem
            obtain ⟨x, hx, rfl⟩ := List.mem_map.1 hmem
            rw [find_snoc hf, mem_assoc n2 hx] at ha
            cases ha
          have hsome : ∀ a m, W.fs.find (full root rel ++ [a]) = some m → (a, m) ∈ es := by
            intro a m ha
            rw [find_snoc hf] at ha
            exact assoc_mem ha
          refine ⟨hE ▸ hT _, fun S hS hc q o => ?_, fun q o hr => ?_, fun hm q hq => ?_⟩
          · rw [Roots.look_created hS h3 (hc _ t3)]
            cases q with
            | nil =>
              constructor
              · intro h
                injection h with h
                subst h
                exact .here hf
              · intro h
                cases h
                rfl
            | cons a q =>
              rw [Roots.lookIn_cons]
              cases ha : W.fs.find (full root rel ++ [a]) with
              | none =>
                rw [h4 a (hnone a ha)]
                exact ⟨fun h => (nomatch h), fun h => absurd h (shows_none ha q o)⟩
              | some m =>
                rcases h5 (a, m) (hsome a m ha) with ⟨g1, g2⟩ | ⟨_, i, g2, g3⟩
                · rw [g2]
                  exact ⟨fun h => (nomatch h), fun h => absurd h (shows_skipped ha g1 q o)⟩
                · rw [g2, Option.bind_some]
                  exact g3.shows S hS (fun c hm => hc c (t1.trees c hm)) q o
          · refine Avail.mono t1 ?_
            cases q with
            | nil =>
              cases hr
              trivial
            | cons a q =>
              cases ha : W.fs.find (full root rel ++ [a]) with
              | none => exact absurd hr (shows_none ha q o)
              | some m =>
                rcases h5 (a, m) (hsome a m ha) with ⟨g1, g2⟩ | ⟨_, i, g2, g3⟩
                · exact absurd hr (shows_skipped ha g1 q o)
                · exact g3.avail q o hr
          · cases q with
            | nil => exact ⟨.dir, .here hf⟩
            | cons a q =>
              cases ha : W.fs.find (full root rel ++ [a]) with
              | none =>
                have : full root rel ++ a :: q = full root rel ++ [a] ++ q := by simp
                rw [this, find_append, ha] at hq
                cases hq
              | some m =>
                rcases h5 (a, m) (hsome a m ha) with ⟨g1, g2⟩ | ⟨_, i, g2, g3⟩
                · exfalso
                  apply hm
                  cases m with
                  | file => cases g1
                  | dir => cases g1
                  | link t => exact eq_of_beq g1
                  | special => exact eq_of_beq g1
                · exact g3.all hm q (by rw [List.append_assoc]; exact hq)

end

end Verif.AddCas
