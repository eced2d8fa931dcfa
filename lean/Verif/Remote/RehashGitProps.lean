import Verif.Remote.RehashProps

/-!
# Rehashing keeps the content (C77): directories as git trees
-/

namespace Verif.Rehash

open Verif.Dig Verif.RE
open Verif.Tree (Ent Groups parseTree readTreeData createTree addTo flat group flat_group flat_addTo Listing C32_round_trip
  C32_order)

/-! ## What is asked for -/

/-- The contents of a native CAS, by hash. -/
def gitOf (ids : Ids) (S : List Content) : Git where
  blob h := S.findSome? fun
    | .blob c => if ids.blob c = h then some c else none
    | .tree _ => none
  tree h := S.findSome? fun
    | .blob _ => none
    | .tree c => if ids.tree c = h then some c else none

/-- No two blobs, and no two trees have the same hash. -/
structure FineGit (ids : Ids) (S : List Content) : Prop where
  blob : ∀ a b, Content.blob a ∈ S → Content.blob b ∈ S → ids.blob a = ids.blob b → a = b
  tree : ∀ a b, Content.tree a ∈ S → Content.tree b ∈ S → ids.tree a = ids.tree b → a = b

/-- A CAS that is read from: by the hash of a digest. -/
def byHash (src : Str → Option Str) (w : Dig.Wire) : Option Str := src w.hash

/-- A digest with a proper SHA256 hash. -/
def ProperHash (w : Dig.Wire) : Prop := isHexString w.hash = true ∧ w.hash.length = 64

/-- A name that can be used in git trees. -/
structure ProperName (n : Str) : Prop where
  nonempty : n ≠ []
  noZero : ∀ c ∈ n, c.toNat ≠ 0
  noSlash : '/' ∉ n
  short : n.length ≤ 65535

/-- What is described, and all that is reachable from it, is there and well formed; and no hash is used both for a
directory and for a file or symbolic link, where `isDir` tells for which it is used. `known` are the contents
that matter. -/
inductive Sound (sha : Str → Str) (isDir : Str → Prop) (known : Str → Prop) (src : Str → Option Str) : Kind → Prop where
  | link {t : Str} : ¬ isDir (sha t) → known t → Sound sha isDir known src (.link t)
  | file {x : Bool} {w : Dig.Wire} {c : Str} : ¬ isDir w.hash → src w.hash = some c →
      Sound sha isDir known src (.file x w)
  | dir {w : Dig.Wire} {s : Str} {m : Directory} : isDir w.hash → src w.hash = some s → Directory.read s = some m →
      ((entries m).map Prod.fst).Nodup → (∀ k ∈ entries m, ProperName k.1) →
      (∀ k ∈ entries m, ∀ w, k.2.digest = some w → ProperHash w) →
      (∀ k ∈ entries m, Sound sha isDir known src k.2) → Sound sha isDir known src (.dir w)

/-- The CAS that is read from has contents under their hashes; and among these and the symbolic links there are no
collisions. -/
structure Honest (sha : Str → Str) (known : Str → Prop) (src : Str → Option Str) : Prop where
  hash : ∀ h c, src h = some c → sha c = h
  covered : ∀ h c, src h = some c → known c
  inj : ∀ a b, known a → known b → sha a = sha b → a = b

/-! ## Without remembering anything -/

/-- The type of an entry. -/
def Kind.type : Kind → ObjectType
  | .dir _ => .tree
  | .link _ => .symlink
  | .file true _ => .executable
  | .file false _ => .file

def refId (ids : Ids) (src : Str → Option Str) (sub : Str → Option Str) : Kind → Option Str
  | .dir w => sub w.hash
  | .link t => some (ids.blob t)
  | .file _ w => (src w.hash).bind fun c => some (ids.blob c)

def refEnts (ids : Ids) (src : Str → Option Str) (sub : Str → Option Str) : List (Str × Kind) → Option (List Ent)
  | [] => some []
  | k :: t => (refId ids src sub k.2).bind fun i => (refEnts ids src sub t).bind fun es => some (⟨k.1, k.2.type, i⟩ :: es)

def refGit (ids : Ids) (src : Str → Option Str) : Nat → Str → Option Str
  | 0, _ => none
  | n + 1, h => (src h).bind fun s => (Directory.read s).bind fun m => (refEnts ids src (refGit ids src n) (entries m)).bind
      fun es => some (ids.tree (createTree (group es)))

section
variable {ids : Ids} {src : Str → Option Str}

theorem refId_mono {sub sub' : Str → Option Str} (h : ∀ i d, sub i = some d → sub' i = some d) {k : Kind} {i : Str}
    (hk : refId ids src sub k = some i) : refId ids src sub' k = some i := by
  cases k with
  | dir w => exact h _ _ hk
  | link t => exact hk
  | file x w => exact hk

theorem refEnts_mono {sub sub' : Str → Option Str} (h : ∀ i d, sub i = some d → sub' i = some d) :
    ∀ {l : List (Str × Kind)} {es : List Ent}, refEnts ids src sub l = some es → refEnts ids src sub' l = some es
  | [], _, hk => hk
  | k :: t, es, hk => by
    unfold refEnts at hk ⊢
    cases h1 : refId ids src sub k.2 with
    | none => rw [h1] at hk; cases hk
    | some i =>
      rw [h1, Option.bind_some] at hk
      cases h2 : refEnts ids src sub t with
      | none => rw [h2] at hk; cases hk
      | some es' =>
        rw [h2] at hk
        rw [refId_mono h h1, Option.bind_some, refEnts_mono h h2]
        exact hk

theorem refGit_succ : ∀ {n : Nat} {h d : Str}, refGit ids src n h = some d → refGit ids src (n + 1) h = some d
  | 0, _, _, h => (nomatch h)
  | n + 1, i, d, h => by
    unfold refGit at h ⊢
    cases hs : src i with
    | none => rw [hs] at h; cases h
    | some s =>
      rw [hs, Option.bind_some] at h
      rw [Option.bind_some]
      cases hp : Directory.read s with
      | none => rw [hp] at h; cases h
      | some m =>
        rw [hp, Option.bind_some] at h
        rw [Option.bind_some]
        cases hk : refEnts ids src (refGit ids src n) (entries m) with
        | none => rw [hk] at h; cases h
        | some ks =>
          rw [hk] at h
          rw [refEnts_mono (fun _ _ => refGit_succ) hk]
          exact h

theorem refGit_mono {n m : Nat} (hnm : n ≤ m) {h d : Str} (e : refGit ids src n h = some d) :
    refGit ids src m h = some d := by
  induction hnm with
  | refl => exact e
  | step _ ih => exact refGit_succ ih

theorem refGit_unique {n m : Nat} {h d d' : Str} (e : refGit ids src n h = some d) (e' : refGit ids src m h = some d') :
    d = d' := by
  have h1 := refGit_mono (Nat.le_max_left n m) e
  have h2 := refGit_mono (Nat.le_max_right n m) e'
  rw [h1] at h2
  exact Option.some.inj h2

end

/-! ## Retrieving -/

section
variable {ids : Ids} {S : List Content}

theorem gitOf_blob (hS : FineGit ids S) {c : Str} (hc : .blob c ∈ S) : (gitOf ids S).blob (ids.blob c) = some c := by
  cases h : (gitOf ids S).blob (ids.blob c) with
  | none =>
    have := List.findSome?_eq_none_iff.1 h _ hc
    dsimp only at this
    rw [if_pos rfl] at this
    cases this
  | some c' =>
    obtain ⟨x, hx, e⟩ := List.exists_of_findSome?_eq_some h
    cases x with
    | tree s => cases e
    | blob s =>
      dsimp only at e
      split at e
      · cases e
        rename_i he
        rw [hS.blob _ _ hx hc he]
      · cases e

theorem gitOf_tree (hS : FineGit ids S) {c : Str} (hc : .tree c ∈ S) : (gitOf ids S).tree (ids.tree c) = some c := by
  cases h : (gitOf ids S).tree (ids.tree c) with
  | none =>
    have := List.findSome?_eq_none_iff.1 h _ hc
    dsimp only at this
    rw [if_pos rfl] at this
    cases this
  | some c' =>
    obtain ⟨x, hx, e⟩ := List.exists_of_findSome?_eq_some h
    cases x with
    | blob s => cases e
    | tree s =>
      dsimp only at e
      split at e
      · cases e
        rename_i he
        rw [hS.tree _ _ hx hc he]
      · cases e

end

theorem proper_hash {w : Dig.Wire} (h : ProperHash w) : ∃ i, fromBazel .plainSHA256 w = some i ∧ i.hash = w.hash := by
  have hp : isPrefixed .plainSHA256 w.hash = false := by
    unfold isPrefixed
    rw [h.2]
    rfl
  unfold fromBazel create
  rw [hp]
  have hv : validInput .plainSHA256 w.hash false = true := by simp [validInput, h.1, h.2, HashType.length]
  simp only [Bool.false_eq_true, if_false, Bool.false_and, hv, if_true]
  exact ⟨_, rfl, rfl⟩

/-! ## The state -/

section
variable (sha : Str → Str) (isDir known : Str → Prop) (ids : Ids) (src : Str → Option Str)

/-- An id for a directory. -/
structure GoodId (store : List Content) (h id : Str) : Prop where
  ref : ∃ n, refGit ids src n h = some id
  length : id.length = 20
  same : ∀ S, store ⊆ S → FineGit ids S → ∀ w : Dig.Wire, w.hash = h → ∀ p,
    gitLook (gitOf ids S) .tree id p = dirLook (byHash src) (.dir w) p

/-- An id for a file or symbolic link. -/
def GoodBlobId (store : List Content) (h id : Str) : Prop := ∃ c, known c ∧ sha c = h ∧ .blob c ∈ store ∧ id = ids.blob c

/-- All that is known is right. -/
def InvGit (st : GState) : Prop := ∀ h o, st.find h = some o →
  (isDir h ∧ o.type = .tree ∧ GoodId ids src st.store h o.digest) ∨
    (¬ isDir h ∧ o.type ≠ .tree ∧ GoodBlobId sha known ids st.store h o.digest)

/-- An entry of a git tree for an entry of a directory. -/
structure GoodEnt (store : List Content) (k : Str × Kind) (e : Ent) : Prop where
  name : e.name = k.1
  type : e.type = k.2.type
  length : e.id.length = 20
  ref : ∃ n, refId ids src (refGit ids src n) k.2 = some e.id
  same : ∀ S, store ⊆ S → FineGit ids S → ∀ p, gitLook (gitOf ids S) e.type e.id p = dirLook (byHash src) k.2 p

variable {sha : Str → Str} {isDir known : Str → Prop} {ids : Ids} {src : Str → Option Str}

theorem GoodId.mono {s s' : List Content} (hs : s ⊆ s') {h id : Str} (g : GoodId ids src s h id) :
    GoodId ids src s' h id := ⟨g.ref, g.length, fun S hS => g.same S (List.Subset.trans hs hS)⟩

theorem GoodBlobId.mono {s s' : List Content} (hs : s ⊆ s') {h id : Str} (g : GoodBlobId sha known ids s h id) :
    GoodBlobId sha known ids s' h id :=
  let ⟨c, h1, h2, h3, h4⟩ := g
  ⟨c, h1, h2, hs h3, h4⟩

theorem GoodEnt.mono {s s' : List Content} (hs : s ⊆ s') {k : Str × Kind} {e : Ent} (g : GoodEnt ids src s k e) :
    GoodEnt ids src s' k e := ⟨g.name, g.type, g.length, g.ref, fun S hS => g.same S (List.Subset.trans hs hS)⟩

theorem InvGit.put {st : GState} (h : InvGit sha isDir known ids src st) (c : Content) :
    InvGit sha isDir known ids src (st.put c) := by
  intro i o hi
  have hs : st.store ⊆ (st.put c).store := List.subset_append_left _ _
  rcases h i o hi with ⟨h1, ht, h2⟩ | ⟨h1, ht, h2⟩
  · exact .inl ⟨h1, ht, h2.mono hs⟩
  · exact .inr ⟨h1, ht, h2.mono hs⟩

theorem InvGit.note {st : GState} (h : InvGit sha isDir known ids src st) {i : Str} {o : Obj Str}
    (ho : (isDir i ∧ o.type = .tree ∧ GoodId ids src st.store i o.digest) ∨
      (¬ isDir i ∧ o.type ≠ .tree ∧ GoodBlobId sha known ids st.store i o.digest)) :
    InvGit sha isDir known ids src (st.note i o) := by
  intro j o' hj
  unfold State.find State.note at hj
  dsimp only at hj
  rw [assoc] at hj
  split at hj
  · rename_i e
    subst e
    cases hj
    exact ho
  · exact h j o' hj

theorem mem_putGit (st : GState) (c : Content) : c ∈ (st.put c).store :=
  List.mem_append_right _ (List.mem_singleton.2 rfl)

theorem InvGit.blob {st : GState} (h : InvGit sha isDir known ids src st) {i c : Str} (hi : ¬ isDir i) (hk : known c)
    (hc : sha c = i) {ty : ObjectType} (ht : ty ≠ .tree) :
    InvGit sha isDir known ids src ((st.put (.blob c)).note i ⟨ids.blob c, ty⟩) :=
  (h.put _).note (.inr ⟨hi, ht, c, hk, hc, mem_putGit st _, rfl⟩)

theorem good_blob_look {S : List Content} (hF : FineGit ids S) {c : Str} (hc : .blob c ∈ S) (x : Bool) {w : Dig.Wire}
    (hw : src w.hash = some c) (p : List Str) :
    gitLook (gitOf ids S) (if x then .executable else .file) (ids.blob c) p = dirLook (byHash src) (.file x w) p := by
  cases x <;> cases p with
  | nil => simp [gitLook, dirLook, gitOf_blob hF hc, byHash, hw]
  | cons a p => rfl

theorem good_link_look {S : List Content} (hF : FineGit ids S) {c : Str} (hc : .blob c ∈ S) (p : List Str) :
    gitLook (gitOf ids S) .symlink (ids.blob c) p = dirLook (byHash src) (.link c) p := by
  cases p with
  | nil => simp [gitLook, dirLook, gitOf_blob hF hc]
  | cons a p => rfl

/-- A step of a loop: adds an entry that is good. -/
def Adds (sha : Str → Str) (isDir known : Str → Prop) (ids : Ids) (src : Str → Option Str)
    (f : Groups → GState → Option (Groups × GState)) (ks : List (Str × Kind)) : Prop :=
  ∀ g st, InvGit sha isDir known ids src st → ∃ g' st' es, f g st = some (g', st') ∧
    InvGit sha isDir known ids src st' ∧ st.store ⊆ st'.store ∧ List.Perm (flat g') (flat g ++ es) ∧
    List.Forall₂ (GoodEnt ids src st'.store) ks es

/-- Rehashing a directory works, from all good states. -/
def WorksGit (sha : Str → Str) (isDir known : Str → Prop) (ids : Ids) (src : Str → Option Str)
    (sub : GState → Str → Option (Str × GState)) (h : Str) : Prop :=
  ∀ st, InvGit sha isDir known ids src st → ∃ id st', sub st h = some (id, st') ∧
    InvGit sha isDir known ids src st' ∧ st.store ⊆ st'.store ∧ GoodId ids src st'.store h id

theorem good_of_id {store : List Content} {n : Str} {w : Dig.Wire} {id : Str} (h : GoodId ids src store w.hash id) :
    GoodEnt ids src store (n, .dir w) ⟨n, .tree, id⟩ :=
  ⟨rfl, rfl, h.length, h.ref, fun S hS hF => h.same S hS hF w rfl⟩

theorem subdir_adds {sub : GState → Str → Option (Str × GState)} (d : DirNode) (hd : ProperHash d.digest)
    (hi : isDir d.digest.hash) (hsub : WorksGit sha isDir known ids src sub d.digest.hash) :
    Adds sha isDir known ids src (subdirToGit sub d) [(d.name, .dir d.digest)] := by
  intro g st hst
  obtain ⟨i, hb, hh⟩ := proper_hash hd
  unfold subdirToGit
  rw [hb, Option.bind_some, hh]
  cases hf : st.find d.digest.hash with
  | some o =>
    rcases hst _ _ hf with ⟨_, _, hg⟩ | ⟨h, _⟩
    · exact ⟨_, st, [⟨d.name, .tree, o.digest⟩], rfl, hst, List.Subset.refl _, flat_addTo _ _ _,
        .cons (good_of_id hg) .nil⟩
    · exact absurd hi h
  | none =>
    obtain ⟨id, st', h, hi', hs, hg⟩ := hsub st hst
    dsimp only
    rw [h]
    exact ⟨_, st', [⟨d.name, .tree, id⟩], rfl, hi', hs, flat_addTo _ _ _, .cons (good_of_id hg) .nil⟩

variable (hlen : ∀ c, (ids.blob c).length = 20)
include hlen

theorem link_adds (hsrc : Honest sha known src) (l : LinkNode) (hi : ¬ isDir (sha l.target)) (hk : known l.target) :
    Adds sha isDir known ids src (linkToGit sha ids l) [(l.name, .link l.target)] := by
  intro g st hst
  unfold linkToGit
  have good : ∀ store : List Content, .blob l.target ∈ store →
      GoodEnt ids src store (l.name, .link l.target) ⟨l.name, .symlink, ids.blob l.target⟩ := fun store hm =>
    ⟨rfl, rfl, hlen _, ⟨0, rfl⟩, fun S hS hF p => good_link_look hF (hS hm) p⟩
  cases hf : st.find (sha l.target) with
  | some o =>
    rcases hst _ _ hf with ⟨h, _⟩ | ⟨_, _, c, hc, he, hm, ho⟩
    · exact absurd h hi
    · have := hsrc.inj _ _ hc hk he
      subst this
      refine ⟨_, st, [⟨l.name, .symlink, o.digest⟩], rfl, hst, List.Subset.refl _, flat_addTo _ _ _, .cons ?_ .nil⟩
      rw [ho]
      exact good _ hm
  | none =>
    exact ⟨_, _, [⟨l.name, .symlink, ids.blob l.target⟩], rfl, hst.blob hi hk rfl (by decide), List.subset_append_left _ _,
      flat_addTo _ _ _, .cons (good _ (mem_putGit st _)) .nil⟩

theorem file_adds (hsrc : Honest sha known src) (f : FileNode) (hd : ProperHash f.digest) (hi : ¬ isDir f.digest.hash)
    {c : Str} (hc : src f.digest.hash = some c) :
    Adds sha isDir known ids src (fileToGit ids src f) [(f.name, .file f.exec f.digest)] := by
  intro g st hst
  obtain ⟨i, hb, hh⟩ := proper_hash hd
  unfold fileToGit
  rw [hb, Option.bind_some, hh]
  have good : ∀ store : List Content, .blob c ∈ store → GoodEnt ids src store (f.name, .file f.exec f.digest)
      ⟨f.name, if f.exec then .executable else .file, ids.blob c⟩ := fun store hm =>
    ⟨rfl, by cases f.exec <;> rfl, hlen _, ⟨0, by rw [refId, hc]; rfl⟩, fun S hS hF p =>
      good_blob_look hF (hS hm) f.exec hc p⟩
  have hne : (if f.exec then ObjectType.executable else .file) ≠ .tree := by cases f.exec <;> decide
  cases hf : st.find f.digest.hash with
  | some o =>
    rcases hst _ _ hf with ⟨h, _⟩ | ⟨_, _, c', hc', he, hm, ho⟩
    · exact absurd h hi
    · have := hsrc.inj c' c hc' (hsrc.covered _ _ hc) (he.trans (hsrc.hash _ _ hc).symm)
      subst this
      refine ⟨_, st, [⟨f.name, if f.exec then .executable else .file, o.digest⟩], rfl, hst, List.Subset.refl _,
        flat_addTo _ _ _, .cons ?_ .nil⟩
      rw [ho]
      exact good _ hm
  | none =>
    dsimp only
    rw [hc]
    exact ⟨_, _, [⟨f.name, if f.exec then .executable else .file, ids.blob c⟩], rfl,
      hst.blob hi (hsrc.covered _ _ hc) (hsrc.hash _ _ hc) hne, List.subset_append_left _ _, flat_addTo _ _ _,
      .cons (good _ (mem_putGit st _)) .nil⟩

omit hlen in
theorem forall₂_append {α β : Type} {R : α → β → Prop} : ∀ {a : List α} {b : List β} {c : List α} {d : List β},
    List.Forall₂ R a b → List.Forall₂ R c d → List.Forall₂ R (a ++ c) (b ++ d)
  | _, _, _, _, .nil, h => h
  | _, _, _, _, .cons h t, h' => .cons h (forall₂_append t h')

omit hlen in
theorem loop_adds {α : Type} {f : α → Groups → GState → Option (Groups × GState)} {kind : α → Str × Kind} :
    ∀ (l : List α), (∀ a ∈ l, Adds sha isDir known ids src (f a) [kind a]) →
      Adds sha isDir known ids src (loop f l) (l.map kind)
  | [], _ => fun g st hst => ⟨g, st, [], rfl, hst, List.Subset.refl _, by rw [List.append_nil], .nil⟩
  | a :: t, h => by
    intro g st hst
    obtain ⟨g1, st1, es1, h1, hi1, hs1, hp1, hg1⟩ := h a (List.mem_cons_self ..) g st hst
    obtain ⟨g2, st2, es2, h2, hi2, hs2, hp2, hg2⟩ :=
      loop_adds (kind := kind) t (fun a ha => h a (List.mem_cons_of_mem _ ha)) g1 st1 hi1
    refine ⟨g2, st2, es1 ++ es2, by rw [loop, h1, Option.bind_some, h2], hi2, List.Subset.trans hs1 hs2, ?_, ?_⟩
    · rw [← List.append_assoc]
      exact hp2.trans (hp1.append_right _)
    · exact forall₂_append (a := [kind a]) (hg1.imp fun _ _ h => h.mono hs2) hg2

omit hlen in
theorem refEnts_good {store : List Content} : ∀ {ks : List (Str × Kind)} {es : List Ent},
    List.Forall₂ (GoodEnt ids src store) ks es → ∃ n, refEnts ids src (refGit ids src n) ks = some es
  | _, _, .nil => ⟨0, rfl⟩
  | k :: t, e :: es, .cons h ht => by
    obtain ⟨n, hn⟩ := h.ref
    obtain ⟨m, hm⟩ := refEnts_good ht
    refine ⟨max n m, ?_⟩
    rw [refEnts, refId_mono (fun _ _ => refGit_mono (Nat.le_max_left n m)) hn, Option.bind_some,
      refEnts_mono (fun _ _ => refGit_mono (Nat.le_max_right n m)) hm, Option.bind_some, ← h.name, ← h.type]

omit hlen in
theorem names_eqGit {store : List Content} : ∀ {ks : List (Str × Kind)} {es : List Ent},
    List.Forall₂ (GoodEnt ids src store) ks es → es.map Ent.name = ks.map Prod.fst
  | _, _, .nil => rfl
  | _, _, .cons h ht => by rw [List.map_cons, List.map_cons, h.name, names_eqGit ht]

omit hlen in
theorem ok_ents {store : List Content} : ∀ {ks : List (Str × Kind)} {es : List Ent},
    List.Forall₂ (GoodEnt ids src store) ks es → (∀ k ∈ ks, ProperName k.1) → ∀ e ∈ es, e.OK
  | _, _, .nil, _, _, h => (nomatch h)
  | k :: t, e :: es, .cons h ht, hn, e', he' => by
    rcases List.mem_cons.1 he' with rfl | he'
    · have := hn k (List.mem_cons_self ..)
      rw [← h.name] at this
      exact ⟨this.nonempty, this.noZero, this.noSlash, this.short, h.length⟩
    · exact ok_ents ht (fun k hk => hn k (List.mem_cons_of_mem _ hk)) e' he'

omit hlen in
theorem look_eqGit {store S : List Content} (hS : store ⊆ S) (hF : FineGit ids S) (n : Str) (p : List Str) :
    ∀ {ks : List (Str × Kind)} {es : List Ent}, List.Forall₂ (GoodEnt ids src store) ks es →
      ((assoc n (es.map fun e => (e.name, e))).bind fun e => gitLook (gitOf ids S) e.type e.id p) =
        (assoc n ks).bind fun k => dirLook (byHash src) k p
  | _, _, .nil => rfl
  | (m, k) :: t, e :: es, .cons h ht => by
    have hm : e.name = m := h.name
    rw [List.map_cons, assoc, assoc, hm]
    split
    · rw [Option.bind_some, Option.bind_some]
      exact h.same S hS hF p
    · exact look_eqGit hS hF n p ht

theorem dir_works (hlen' : ∀ c, (ids.tree c).length = 20) (hsrc : Honest sha known src) {h s : Str} {m : Directory}
    (hi : isDir h) (hs : src h = some s) (hm : Directory.read s = some m) (hn : ((entries m).map Prod.fst).Nodup)
    (hnames : ∀ k ∈ entries m, ProperName k.1)
    (hdig : ∀ k ∈ entries m, ∀ w, k.2.digest = some w → ProperHash w)
    (hk : ∀ k ∈ entries m, Sound sha isDir known src k.2) {n : Nat}
    (hsub : ∀ k ∈ entries m, ∀ w, k.2 = .dir w → WorksGit sha isDir known ids src (toGit sha ids src n) w.hash) :
    WorksGit sha isDir known ids src (toGit sha ids src (n + 1)) h := by
  intro st hst
  have hd : ∀ d ∈ m.dirs, (d.name, Kind.dir d.digest) ∈ entries m := fun d hd =>
    List.mem_append_left _ (List.mem_map.2 ⟨d, hd, rfl⟩)
  have hl : ∀ l ∈ m.links, (l.name, Kind.link l.target) ∈ entries m := fun l hl =>
    List.mem_append_right _ (List.mem_append_left _ (List.mem_map.2 ⟨l, hl, rfl⟩))
  have hf : ∀ f ∈ m.files, (f.name, Kind.file f.exec f.digest) ∈ entries m := fun f hf =>
    List.mem_append_right _ (List.mem_append_right _ (List.mem_map.2 ⟨f, hf, rfl⟩))
  obtain ⟨g1, st1, es1, h1, hi1, hs1, hp1, hg1⟩ := loop_adds (kind := fun d : DirNode => (d.name, Kind.dir d.digest)) m.dirs
    (fun d hm => subdir_adds d (hdig _ (hd d hm) _ rfl)
      (by cases hk _ (hd d hm) with | dir h => exact h) (hsub _ (hd d hm) _ rfl)) [] st hst
  obtain ⟨g2, st2, es2, h2, hi2, hs2, hp2, hg2⟩ := loop_adds (kind := fun l : LinkNode => (l.name, Kind.link l.target))
    m.links (fun l hm => by
      cases hk _ (hl l hm) with
      | link h h' => exact link_adds hlen hsrc l h h') g1 st1 hi1
  obtain ⟨g3, st3, es3, h3, hi3, hs3, hp3, hg3⟩ := loop_adds (kind := fun f : FileNode => (f.name, Kind.file f.exec f.digest))
    m.files (fun f hm => by
      cases hk _ (hf f hm) with
      | file h h' => exact file_adds hlen hsrc f (hdig _ (hf f hm) _ rfl) h h') g2 st2 hi2
  have hs12 : st.store ⊆ st3.store := List.Subset.trans hs1 (List.Subset.trans hs2 hs3)
  have hg : List.Forall₂ (GoodEnt ids src st3.store) (entries m) (es1 ++ (es2 ++ es3)) :=
    forall₂_append (hg1.imp fun _ _ h => h.mono (List.Subset.trans hs2 hs3))
      (forall₂_append (hg2.imp fun _ _ h => h.mono hs3) hg3)
  have hp : List.Perm (flat g3) (es1 ++ (es2 ++ es3)) := by
    rw [← List.append_assoc]
    exact hp3.trans ((hp2.trans (hp1.append_right _)).append_right _)
  have hlist : Listing (flat g3) :=
    Listing.perm ⟨ok_ents hg hnames, by rw [names_eqGit hg]; exact hn⟩ hp.symm
  have hgood : GoodId ids src (st3.put (.tree (createTree g3))).store h (ids.tree (createTree g3)) := by
    refine ⟨?_, hlen' _, ?_⟩
    · obtain ⟨k, hk⟩ := refEnts_good hg
      refine ⟨k + 1, ?_⟩
      rw [refGit, hs, Option.bind_some, hm, Option.bind_some, hk, Option.bind_some,
        C32_order g3 (group (es1 ++ (es2 ++ es3))) hlist (hp.trans (flat_group _).symm)]
    · intro S hS hF w hw p
      have hS' : st3.store ⊆ S := List.Subset.trans (List.subset_append_left _ _) hS
      obtain ⟨l, hl, _, _, hread, _⟩ := C32_round_trip g3 hlist
      have hbyHash : byHash src w = some s := by unfold byHash; rw [hw, hs]
      cases p with
      | nil =>
        rw [gitLook, gitOf_tree hF (hS (mem_putGit _ _)), Option.bind_some, hread, dirLook, hbyHash, Option.bind_some,
          Option.bind_some, hm]
        rfl
      | cons a p =>
        have hn' : ((l.map fun e => (e.name, e)).map Prod.fst).Nodup := by
          rw [List.map_map]
          exact (hlist.perm hl.symm).names
        rw [gitLook, gitOf_tree hF (hS (mem_putGit _ _)), Option.bind_some, hread, dirLook, hbyHash, Option.bind_some,
          Option.bind_some, hm, Option.bind_some, ← look_eqGit hS' hF a p hg,
          assoc_perm hn' ((hl.trans hp).map fun e => (e.name, e))]
  refine ⟨ids.tree (createTree g3), (st3.put (.tree (createTree g3))).note h ⟨ids.tree (createTree g3), .tree⟩, ?_,
    (hi3.put _).note (.inl ⟨hi, rfl, hgood⟩), List.Subset.trans hs12 (List.subset_append_left _ _), hgood⟩
  rw [toGit, hs, Option.bind_some, hm, Option.bind_some, h1, Option.bind_some]
  dsimp only
  rw [h2, Option.bind_some]
  dsimp only
  rw [h3, Option.bind_some]

omit hlen in
theorem max_fuelGit {α : Type} {P : α → Nat → Prop} : ∀ {l : List α}, (∀ e ∈ l, ∃ N, ∀ n, N ≤ n → P e n) →
    ∃ N, ∀ n, N ≤ n → ∀ e ∈ l, P e n
  | [], _ => ⟨0, fun _ _ _ h => nomatch h⟩
  | e :: t, h => by
    obtain ⟨N, hN⟩ := h e (List.mem_cons_self ..)
    obtain ⟨M, hM⟩ := max_fuelGit fun e he => h e (List.mem_cons_of_mem _ he)
    refine ⟨max N M, fun n hn e' he' => ?_⟩
    rcases List.mem_cons.1 he' with rfl | he'
    · exact hN n (Nat.le_trans (Nat.le_max_left _ _) hn)
    · exact hM n (Nat.le_trans (Nat.le_max_right _ _) hn) e' he'

theorem worksGit (hlen' : ∀ c, (ids.tree c).length = 20) (hsrc : Honest sha known src) {k : Kind}
    (hk : Sound sha isDir known src k) : ∃ N, ∀ n, N ≤ n → ∀ w, k = .dir w →
      WorksGit sha isDir known ids src (toGit sha ids src n) w.hash := by
  induction hk with
  | link => exact ⟨0, fun _ _ _ h => nomatch h⟩
  | file => exact ⟨0, fun _ _ _ h => nomatch h⟩
  | dir hi hs hm hn hnames hdig hk ih =>
    obtain ⟨N, hN⟩ := max_fuelGit (P := fun (k : Str × Kind) n => ∀ w, k.2 = .dir w →
      WorksGit sha isDir known ids src (toGit sha ids src n) w.hash) ih
    refine ⟨N + 1, fun n hn' w hw => ?_⟩
    cases hw
    obtain ⟨m, rfl⟩ : ∃ m, n = m + 1 := ⟨n - 1, by omega⟩
    exact dir_works hlen hlen' hsrc hi hs hm hn hnames hdig hk (hN m (by omega))

/-! ## Lists of objects -/

/-- What the result for an object has to be. -/
structure ResultGit (sha : Str → Str) (known : Str → Prop) (ids : Ids) (src : Str → Option Str) (store : List Content)
    (i o : Obj Str) : Prop where
  isTree : o.type = .tree ↔ i.type = .tree
  tree : i.type = .tree → GoodId ids src store i.digest o.digest
  blob : i.type ≠ .tree → GoodBlobId sha known ids store i.digest o.digest

omit hlen in
theorem ResultGit.mono {s s' : List Content} (hs : s ⊆ s') {i o : Obj Str} (h : ResultGit sha known ids src s i o) :
    ResultGit sha known ids src s' i o := ⟨h.isTree, fun ht => (h.tree ht).mono hs, fun ht => (h.blob ht).mono hs⟩

/-- An object of the compatible protocol as entry of a directory. -/
def asKind (i : Obj Str) : Kind := if i.type = .tree then .dir ⟨i.digest, 0⟩ else .file false ⟨i.digest, 0⟩

theorem rehashGit_one (hlen' : ∀ c, (ids.tree c).length = 20) (hsrc : Honest sha known src) (i : Obj Str)
    (hc : Sound sha isDir known src (asKind i)) : ∃ N, ∀ n, N ≤ n → ∀ st, InvGit sha isDir known ids src st →
      ∃ o st', rehashToGit sha ids src n st i = some (o, st') ∧ InvGit sha isDir known ids src st' ∧
        st.store ⊆ st'.store ∧ ResultGit sha known ids src st'.store i o := by
  obtain ⟨N, hN⟩ := worksGit hlen hlen' hsrc hc
  refine ⟨N, fun n hn st hst => ?_⟩
  have htree : i.type = .tree → isDir i.digest := by
    intro ht
    unfold asKind at hc
    rw [if_pos ht] at hc
    cases hc with
    | dir h => exact h
  have hblob : i.type ≠ .tree → ¬ isDir i.digest ∧ ∃ c, src i.digest = some c := by
    intro ht
    unfold asKind at hc
    rw [if_neg ht] at hc
    cases hc with
    | file h h' => exact ⟨h, _, h'⟩
  unfold rehashToGit
  cases hf : st.find i.digest with
  | some o =>
    refine ⟨o, st, rfl, hst, List.Subset.refl _, ?_⟩
    rcases hst _ _ hf with ⟨h1, h2, h3⟩ | ⟨h1, h2, h3⟩
    · have ht : i.type = .tree := by
        apply Classical.byContradiction
        intro ht
        exact (hblob ht).1 h1
      exact ⟨⟨fun _ => ht, fun _ => h2⟩, fun _ => h3, fun h => absurd ht h⟩
    · have ht : i.type ≠ .tree := fun h => h1 (htree h)
      exact ⟨⟨fun h => absurd h h2, fun h => absurd h ht⟩, fun h => absurd h ht, fun _ => h3⟩
  | none =>
    dsimp only
    by_cases ht : i.type = .tree
    · rw [if_pos ht]
      obtain ⟨d, st', hd, hi, hs, hg⟩ := hN n hn ⟨i.digest, 0⟩ (by unfold asKind; rw [if_pos ht]) st hst
      dsimp only at hd
      exact ⟨⟨d, .tree⟩, st', by rw [hd]; rfl, hi, hs, ⟨fun _ => ht, fun _ => rfl⟩, fun _ => hg, fun h => absurd ht h⟩
    · rw [if_neg ht]
      obtain ⟨hi, c, hc⟩ := hblob ht
      refine ⟨⟨ids.blob c, i.type⟩, (st.put (.blob c)).note i.digest ⟨ids.blob c, i.type⟩, by rw [hc]; rfl,
        hst.blob hi (hsrc.covered _ _ hc) (hsrc.hash _ _ hc) ht, List.subset_append_left _ _, Iff.rfl, fun h => absurd h ht,
        fun _ => ⟨c, hsrc.covered _ _ hc, hsrc.hash _ _ hc, mem_putGit st _, rfl⟩⟩

theorem rehashGit_all (hlen' : ∀ c, (ids.tree c).length = 20) (hsrc : Honest sha known src) :
    ∀ (l : List (Obj Str)), (∀ i ∈ l, Sound sha isDir known src (asKind i)) → ∃ N, ∀ n, N ≤ n → ∀ st,
      InvGit sha isDir known ids src st → ∃ os st', rehashAll (rehashToGit sha ids src n) st l = some (os, st') ∧
        InvGit sha isDir known ids src st' ∧ st.store ⊆ st'.store ∧
        List.Forall₂ (ResultGit sha known ids src st'.store) l os
  | [], _ => ⟨0, fun _ _ st h => ⟨[], st, rfl, h, List.Subset.refl _, .nil⟩⟩
  | i :: t, hc => by
    obtain ⟨N, hN⟩ := rehashGit_one hlen hlen' hsrc i (hc i (List.mem_cons_self ..))
    obtain ⟨M, hM⟩ := rehashGit_all hlen' hsrc t fun i h => hc i (List.mem_cons_of_mem _ h)
    refine ⟨max N M, fun n hn st hst => ?_⟩
    obtain ⟨o, st1, h1, hi1, hs1, hr1⟩ := hN n (Nat.le_trans (Nat.le_max_left _ _) hn) st hst
    obtain ⟨os, st2, h2, hi2, hs2, hr2⟩ := hM n (Nat.le_trans (Nat.le_max_right _ _) hn) st1 hi1
    exact ⟨o :: os, st2, by rw [rehashAll, h1, Option.bind_some, h2]; rfl, hi2, List.Subset.trans hs1 hs2,
      .cons (hr1.mono hs2) hr2⟩

end

/-- Missing: directories and files having the same content, see `C77_violation_empty`, and digests with hashes of
wrong length, see C44.

**C77.** Rehashing objects of the compatible protocol, whatever has been rehashed before, gives ids under which the
native CAS has the same contents: for a blob the blob, for a directory a git tree in which exactly the same paths
exist, with the same contents, types and executable bits. -/
theorem C77_to_git_partial (sha : Str → Str) (isDir known : Str → Prop) (ids : Ids) (src : Str → Option Str)
    (hblob : ∀ c, (ids.blob c).length = 20) (htree : ∀ c, (ids.tree c).length = 20) (hsrc : Honest sha known src)
    (store : List Content) (objs : List (Obj Str)) (hc : ∀ i ∈ objs, Sound sha isDir known src (asKind i)) :
    ∃ N, ∀ n, N ≤ n → ∃ os st, rehashAll (rehashToGit sha ids src n) ⟨[], store⟩ objs = some (os, st) ∧
      store ⊆ st.store ∧ List.Forall₂ (fun i o => (o.type = .tree ↔ i.type = .tree) ∧
        ∀ S, st.store ⊆ S → FineGit ids S →
          (i.type = .tree → ∀ p, gitLook (gitOf ids S) .tree o.digest p = dirLook (byHash src) (asKind i) p) ∧
          (i.type ≠ .tree → (gitOf ids S).blob o.digest = src i.digest)) objs os := by
  obtain ⟨N, hN⟩ := rehashGit_all hblob htree hsrc objs hc
  refine ⟨N, fun n hn => ?_⟩
  obtain ⟨os, st, h, _, hs, hr⟩ := hN n hn ⟨[], store⟩ fun _ _ h => nomatch h
  refine ⟨os, st, h, hs, ?_⟩
  have : ∀ {l : List (Obj Str)} {os : List (Obj Str)}, List.Forall₂ (ResultGit sha known ids src st.store) l os →
      (∀ i ∈ l, Sound sha isDir known src (asKind i)) → List.Forall₂ (fun i o => (o.type = .tree ↔ i.type = .tree) ∧
        ∀ S, st.store ⊆ S → FineGit ids S →
          (i.type = .tree → ∀ p, gitLook (gitOf ids S) .tree o.digest p = dirLook (byHash src) (asKind i) p) ∧
          (i.type ≠ .tree → (gitOf ids S).blob o.digest = src i.digest)) l os := by
    intro l os hr
    induction hr with
    | nil => exact fun _ => .nil
    | @cons i o _ _ ho _ ih =>
      intro hc
      refine .cons ⟨ho.isTree, fun S hS hF => ⟨fun ht p => ?_, fun ht => ?_⟩⟩ (ih fun i h => hc i (List.mem_cons_of_mem _ h))
      · unfold asKind
        rw [if_pos ht]
        exact (ho.tree ht).same S hS hF _ rfl p
      · obtain ⟨c, hk, he, hm, hd⟩ := ho.blob ht
        have hs := hc i (List.mem_cons_self ..)
        unfold asKind at hs
        rw [if_neg ht] at hs
        cases hs with
        | file _ h =>
          dsimp only at h
          rw [hd, gitOf_blob hF (hS hm), h, hsrc.inj _ _ hk (hsrc.covered _ _ h) (he.trans (hsrc.hash _ _ h).symm)]
  exact this hr hc

/-- Missing: as for `C77_to_git_partial`.

**C77.** The id is a function of the object: it does not depend on what has been rehashed before or on the content of
the CAS. -/
theorem C77_same_git_partial (sha : Str → Str) (isDir known : Str → Prop) (ids : Ids) (src : Str → Option Str)
    (hblob : ∀ c, (ids.blob c).length = 20) (htree : ∀ c, (ids.tree c).length = 20) (hsrc : Honest sha known src)
    (store store' : List Content) (objs objs' : List (Obj Str)) (hc : ∀ i ∈ objs, Sound sha isDir known src (asKind i))
    (hc' : ∀ i ∈ objs', Sound sha isDir known src (asKind i)) :
    ∃ N, ∀ n n', N ≤ n → N ≤ n' → ∀ os os' st st',
      rehashAll (rehashToGit sha ids src n) ⟨[], store⟩ objs = some (os, st) →
      rehashAll (rehashToGit sha ids src n') ⟨[], store'⟩ objs' = some (os', st') →
      ∀ i i' o o', (i, o) ∈ objs.zip os → (i', o') ∈ objs'.zip os' → i.digest = i'.digest → o.digest = o'.digest := by
  obtain ⟨N, hN⟩ := rehashGit_all hblob htree hsrc objs hc
  obtain ⟨M, hM⟩ := rehashGit_all hblob htree hsrc objs' hc'
  refine ⟨max N M, fun n n' hn hn' os os' st st' h h' i i' o o' hi hi' e => ?_⟩
  obtain ⟨_, _, g, _, _, hr⟩ := hN n (Nat.le_trans (Nat.le_max_left _ _) hn) ⟨[], store⟩ fun _ _ h => nomatch h
  obtain ⟨_, _, g', _, _, hr'⟩ := hM n' (Nat.le_trans (Nat.le_max_right _ _) hn') ⟨[], store'⟩ fun _ _ h => nomatch h
  rw [h] at g
  rw [h'] at g'
  cases g
  cases g'
  have r := forall₂_zip hr hi
  have r' := forall₂_zip hr' hi'
  have key : ∀ j : Obj Str, Sound sha isDir known src (asKind j) → (j.type = .tree ↔ isDir j.digest) := by
    intro j hj
    unfold asKind at hj
    split at hj
    · rename_i ht
      cases hj with
      | dir h => exact ⟨fun _ => h, fun _ => ht⟩
    · rename_i ht
      cases hj with
      | file h => exact ⟨fun h' => absurd h' ht, fun h' => absurd h' h⟩
  have hk := key i (hc i (List.of_mem_zip hi).1)
  have hk' := key i' (hc' i' (List.of_mem_zip hi').1)
  rw [← e] at hk'
  by_cases ht : i.type = .tree
  · obtain ⟨n, g1⟩ := (r.tree ht).ref
    obtain ⟨m, g2⟩ := (r'.tree (hk'.2 (hk.1 ht))).ref
    rw [← e] at g2
    exact refGit_unique g1 g2
  · obtain ⟨c, k1, g1, _, e1⟩ := r.blob ht
    obtain ⟨c', k2, g2, _, e2⟩ := r'.blob (fun h => ht (hk.2 (hk'.1 h)))
    rw [e1, e2, hsrc.inj _ _ k1 k2 (by rw [g1, g2, e])]

end Verif.Rehash
