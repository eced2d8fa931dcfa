import Verif.Remote.Rehash

/-!
# Rehashing keeps the content (C77)
-/

namespace Verif.Rehash

open Verif.Dig Verif.RE
open Verif.Tree (Ent Groups parseTree readTreeData createTree addTo flat group flat_group)

/-! ## What is found at a path -/

/-- What can be found at a path. -/
inductive Obs where
  | dir
  | file (exec : Bool) (content : Str)
  | link (target : Str)
  deriving DecidableEq

/-- Walking through git trees. -/
def gitLook (g : Git) : ObjectType → Str → List Str → Option Obs
  | .tree, id, [] => (g.tree id).bind fun s => (parseTree s).bind fun _ => some .dir
  | .symlink, id, [] => (g.blob id).bind fun t => some (.link t)
  | .file, id, [] => (g.blob id).bind fun c => some (.file false c)
  | .executable, id, [] => (g.blob id).bind fun c => some (.file true c)
  | .tree, id, n :: p => (g.tree id).bind fun s => (parseTree s).bind fun l =>
      (assoc n (l.map fun e => (e.name, e))).bind fun e => gitLook g e.type e.id p
  | _, _, _ :: _ => none

/-- What a directory message says about an entry. -/
inductive Kind where
  | dir (digest : Dig.Wire)
  | link (target : Str)
  | file (exec : Bool) (digest : Dig.Wire)
  deriving DecidableEq

/-- All entries of a directory message. -/
def entries (m : Directory) : List (Str × Kind) :=
  m.dirs.map (fun d => (d.name, .dir d.digest)) ++ (m.links.map (fun l => (l.name, .link l.target)) ++
    m.files.map fun f => (f.name, .file f.exec f.digest))

/-- Walking through directories. -/
def dirLook (S : Dig.Wire → Option Str) : Kind → List Str → Option Obs
  | .link t, [] => some (.link t)
  | .file x w, [] => (S w).bind fun c => some (.file x c)
  | .dir w, [] => (S w).bind fun s => (Directory.read s).bind fun _ => some .dir
  | .dir w, n :: p => (S w).bind fun s => (Directory.read s).bind fun m =>
      (assoc n (entries m)).bind fun k => dirLook S k p
  | _, _ :: _ => none

/-- The content found under a digest in a CAS of the compatible protocol. -/
def retr (sha : Str → Str) (S : List Str) (w : Dig.Wire) : Option Str := S.find? fun c => digestOf sha c = w

/-- Contents without collisions, and not larger than can be written down in a digest. -/
structure Fine (sha : Str → Str) (S : List Str) : Prop where
  inj : ∀ a ∈ S, ∀ b ∈ S, sha a = sha b → a = b
  short : ∀ c ∈ S, c.length < 2 ^ 63

/-- The object, and all that is reachable from it, is there and well formed. -/
inductive Complete (g : Git) : ObjectType → Str → Prop where
  | blob {ty : ObjectType} {id c : Str} : ty ≠ .tree → g.blob id = some c → Complete g ty id
  | tree {id s : Str} {l : List Ent} : g.tree id = some s → parseTree s = some l → (l.map Ent.name).Nodup →
      (∀ e ∈ l, Complete g e.type e.id) → Complete g .tree id

/-- No hash is the one of a blob and of a tree. -/
def Separate (g : Git) : Prop := ∀ h, g.tree h ≠ none → g.blob h = none

/-! ## The directory for a git tree, without remembering anything -/

section
variable (sha : Str → Str) (src : Git)

def refKind (sub : Str → Option Dig.Wire) (e : Ent) : Option Kind :=
  match e.type with
  | .tree => (sub e.id).bind fun d => some (.dir d)
  | .symlink => (src.blob e.id).bind fun t => some (.link t)
  | ty => (src.blob e.id).bind fun c => some (.file (ty == .executable) (digestOf sha c))

def refKinds (sub : Str → Option Dig.Wire) : List Ent → Option (List (Str × Kind))
  | [] => some []
  | e :: t => (refKind sha src sub e).bind fun k => (refKinds sub t).bind fun ks => some ((e.name, k) :: ks)

def fileOf : Str × Kind → Option FileNode
  | (n, .file x w) => some ⟨n, w, x⟩
  | _ => none

def dirOf : Str × Kind → Option DirNode
  | (n, .dir w) => some ⟨n, w⟩
  | _ => none

def linkOf : Str × Kind → Option LinkNode
  | (n, .link t) => some ⟨n, t⟩
  | _ => none

/-- Entries as lists of nodes. -/
def nodesOf (ks : List (Str × Kind)) : Nodes := ⟨ks.filterMap fileOf, ks.filterMap dirOf, ks.filterMap linkOf⟩

def message (n : Nodes) : Directory := createDirectory n.files n.dirs n.links

def refDir : Nat → Str → Option Dig.Wire
  | 0, _ => none
  | n + 1, id => (src.tree id).bind fun s => (parseTree s).bind fun l => (refKinds sha src (refDir n) l).bind fun ks =>
      some (digestOf sha (message (nodesOf ks)).text)

end

/-! ## Lists of entries -/

theorem assoc_nodup {α : Type} {n : Str} {a : α} : ∀ {l : List (Str × α)}, (l.map Prod.fst).Nodup → (n, a) ∈ l →
    assoc n l = some a
  | [], _, h => (nomatch h)
  | (m, b) :: t, hn, h => by
    rw [List.map_cons, List.nodup_cons] at hn
    rcases List.mem_cons.1 h with h | h
    · cases h
      rw [assoc, if_pos rfl]
    · rw [assoc, if_neg, assoc_nodup hn.2 h]
      intro e
      exact hn.1 (List.mem_map.2 ⟨_, h, e⟩)

theorem assoc_perm {α : Type} {l l' : List (Str × α)} (hn : (l.map Prod.fst).Nodup) (h : List.Perm l l') (n : Str) :
    assoc n l = assoc n l' := by
  have hn' : (l'.map Prod.fst).Nodup := (h.map _).nodup_iff.1 hn
  cases ha : assoc n l with
  | some a =>
    exact (assoc_nodup hn' (h.mem_iff.1 (assoc_some_mem ha))).symm
  | none =>
    cases hb : assoc n l' with
    | none => rfl
    | some b =>
      rw [assoc_nodup hn (h.mem_iff.2 (assoc_some_mem hb))] at ha
      cases ha

theorem nodes_perm : ∀ ks : List (Str × Kind), List.Perm
    ((ks.filterMap dirOf).map (fun d => (d.name, Kind.dir d.digest)) ++
      ((ks.filterMap linkOf).map (fun l => (l.name, Kind.link l.target)) ++
        (ks.filterMap fileOf).map fun f => (f.name, Kind.file f.exec f.digest))) ks
  | [] => List.Perm.refl _
  | (n, .dir w) :: t => by
    rw [List.filterMap_cons, List.filterMap_cons, List.filterMap_cons]
    exact (nodes_perm t).cons _
  | (n, .link w) :: t => by
    rw [List.filterMap_cons, List.filterMap_cons, List.filterMap_cons]
    exact List.perm_middle.trans ((nodes_perm t).cons _)
  | (n, .file x w) :: t => by
    rw [List.filterMap_cons, List.filterMap_cons, List.filterMap_cons]
    refine List.Perm.trans ?_ ((nodes_perm t).cons (n, .file x w))
    simp only [dirOf, linkOf, fileOf, List.map_cons]
    rw [← List.append_assoc, ← List.append_assoc]
    exact List.perm_middle

/-- The message has exactly the entries. -/
theorem entries_message (ks : List (Str × Kind)) : List.Perm (entries (message (nodesOf ks))) ks := by
  refine List.Perm.trans ?_ (nodes_perm ks)
  unfold entries message createDirectory nodesOf
  exact ((sortBy_perm _ _).map _).append (((sortBy_perm _ _).map _).append ((sortBy_perm _ _).map _))

theorem name_of_file {k : Str × Kind} {f : FileNode} (h : fileOf k = some f) : f.name = k.1 := by
  obtain ⟨n, k⟩ := k
  cases k <;> cases h
  rfl

theorem name_of_dir {k : Str × Kind} {f : DirNode} (h : dirOf k = some f) : f.name = k.1 := by
  obtain ⟨n, k⟩ := k
  cases k <;> cases h
  rfl

theorem name_of_link {k : Str × Kind} {f : LinkNode} (h : linkOf k = some f) : f.name = k.1 := by
  obtain ⟨n, k⟩ := k
  cases k <;> cases h
  rfl

theorem names_filterMap {α : Type} {f : Str × Kind → Option α} {key : α → Str} (hf : ∀ k a, f k = some a → key a = k.1) :
    ∀ {ks : List (Str × Kind)}, (ks.map Prod.fst).Nodup → ((ks.filterMap f).map key).Nodup
  | [], _ => List.nodup_nil
  | k :: t, h => by
    rw [List.map_cons, List.nodup_cons] at h
    rw [List.filterMap_cons]
    cases hk : f k with
    | none => exact names_filterMap hf h.2
    | some a =>
      dsimp only
      rw [List.map_cons, List.nodup_cons]
      refine ⟨fun hm => h.1 ?_, names_filterMap hf h.2⟩
      obtain ⟨b, hb, e⟩ := List.mem_map.1 hm
      obtain ⟨k', hk', hb'⟩ := List.mem_filterMap.1 hb
      exact List.mem_map.2 ⟨k', hk', by rw [← hf k' b hb', e, hf k a hk]⟩

/-- The message does not depend on the order of entries. -/
theorem message_congr {ks ks' : List (Str × Kind)} (hn : (ks.map Prod.fst).Nodup) (h : List.Perm ks ks') :
    message (nodesOf ks) = message (nodesOf ks') := by
  unfold message createDirectory nodesOf
  rw [sortBy_congr (names_filterMap (fun _ _ => name_of_file) hn) (h.filterMap fileOf),
    sortBy_congr (names_filterMap (fun _ _ => name_of_dir) hn) (h.filterMap dirOf),
    sortBy_congr (names_filterMap (fun _ _ => name_of_link) hn) (h.filterMap linkOf)]

theorem nodesOf_append (ks : List (Str × Kind)) (k : Str × Kind) :
    nodesOf (ks ++ [k]) = ⟨(nodesOf ks).files ++ (fileOf k).toList, (nodesOf ks).dirs ++ (dirOf k).toList,
      (nodesOf ks).links ++ (linkOf k).toList⟩ := by
  unfold nodesOf
  simp only [List.filterMap_append]
  rfl

/-! ## Retrieving -/

theorem retr_mem {sha : Str → Str} {S : List Str} (hS : Fine sha S) {c : Str} (hc : c ∈ S) :
    retr sha S (digestOf sha c) = some c := by
  unfold retr
  cases h : S.find? (fun c' => decide (digestOf sha c' = digestOf sha c)) with
  | none => exact absurd (decide_eq_true rfl) (List.find?_eq_none.1 h c hc)
  | some c' =>
    have h2 : digestOf sha c' = digestOf sha c := by
      have := List.find?_some h
      exact of_decide_eq_true this
    rw [hS.inj c' (List.mem_of_find?_eq_some h) c hc (congrArg Dig.Wire.hash h2)]

theorem digestOf_size {sha : Str → Str} {S : List Str} (hS : Fine sha S) {c : Str} (hc : c ∈ S) :
    RE.Int64 (digestOf sha c).size := by
  have := hS.short c hc
  unfold RE.Int64 digestOf
  dsimp only
  omega

/-- The digest in an entry. -/
def Kind.digest : Kind → Option Dig.Wire
  | .dir w => some w
  | .link _ => none
  | .file _ w => some w

theorem message_sized {ks : List (Str × Kind)} (h : ∀ k ∈ ks, ∀ w, k.2.digest = some w → RE.Int64 w.size) :
    (message (nodesOf ks)).Sized := by
  constructor
  · intro f hf
    obtain ⟨⟨n, k⟩, hk, e⟩ := List.mem_filterMap.1 ((sortBy_perm _ _).mem_iff.1 hf)
    cases k <;> cases e
    exact h _ hk _ rfl
  · intro f hf
    obtain ⟨⟨n, k⟩, hk, e⟩ := List.mem_filterMap.1 ((sortBy_perm _ _).mem_iff.1 hf)
    cases k <;> cases e
    exact h _ hk _ rfl

/-! ## Reference -/

section
variable {sha : Str → Str} {src : Git}

theorem refKind_mono {sub sub' : Str → Option Dig.Wire} (h : ∀ id d, sub id = some d → sub' id = some d) {e : Ent}
    {k : Kind} (hk : refKind sha src sub e = some k) : refKind sha src sub' e = some k := by
  unfold refKind at hk ⊢
  split
  · rename_i ht
    rw [ht] at hk
    dsimp only at hk
    cases hs : sub e.id with
    | none => rw [hs] at hk; cases hk
    | some d => rw [hs] at hk; rw [h _ _ hs]; exact hk
  · rename_i ht
    rw [ht] at hk
    exact hk
  · rename_i h1 h2
    split at hk
    · rename_i h3; exact absurd h3 h1
    · rename_i h3; exact absurd h3 h2
    · exact hk

theorem refKinds_mono {sub sub' : Str → Option Dig.Wire} (h : ∀ id d, sub id = some d → sub' id = some d) :
    ∀ {l : List Ent} {ks : List (Str × Kind)}, refKinds sha src sub l = some ks → refKinds sha src sub' l = some ks
  | [], _, hk => hk
  | e :: t, ks, hk => by
    unfold refKinds at hk ⊢
    cases h1 : refKind sha src sub e with
    | none => rw [h1] at hk; cases hk
    | some k =>
      rw [h1, Option.bind_some] at hk
      cases h2 : refKinds sha src sub t with
      | none => rw [h2] at hk; cases hk
      | some ks' =>
        rw [h2] at hk
        rw [refKind_mono h h1, Option.bind_some, refKinds_mono h h2]
        exact hk

theorem refDir_succ : ∀ {n : Nat} {id : Str} {d : Dig.Wire}, refDir sha src n id = some d →
    refDir sha src (n + 1) id = some d
  | 0, _, _, h => (nomatch h)
  | n + 1, id, d, h => by
    unfold refDir at h ⊢
    cases hs : src.tree id with
    | none => rw [hs] at h; cases h
    | some s =>
      rw [hs, Option.bind_some] at h
      rw [Option.bind_some]
      cases hp : parseTree s with
      | none => rw [hp] at h; cases h
      | some l =>
        rw [hp, Option.bind_some] at h
        rw [Option.bind_some]
        cases hk : refKinds sha src (refDir sha src n) l with
        | none => rw [hk] at h; cases h
        | some ks =>
          rw [hk] at h
          rw [refKinds_mono (fun _ _ => refDir_succ) hk]
          exact h

theorem refDir_mono {n m : Nat} (hnm : n ≤ m) {id : Str} {d : Dig.Wire} (h : refDir sha src n id = some d) :
    refDir sha src m id = some d := by
  induction hnm with
  | refl => exact h
  | step _ ih => exact refDir_succ ih

theorem refDir_unique {n m : Nat} {id : Str} {d d' : Dig.Wire} (h : refDir sha src n id = some d)
    (h' : refDir sha src m id = some d') : d = d' := by
  have h1 := refDir_mono (Nat.le_max_left n m) h
  have h2 := refDir_mono (Nat.le_max_right n m) h'
  rw [h1] at h2
  exact Option.some.inj h2

end

/-! ## The state -/

section
variable (sha : Str → Str) (src : Git)

/-- A digest for a git tree: the one of the reference, stored, and showing the same. -/
structure GoodTree (store : List Str) (id : Str) (d : Dig.Wire) : Prop where
  ref : ∃ n, refDir sha src n id = some d
  stored : ∃ c ∈ store, d = digestOf sha c
  same : ∀ S, store ⊆ S → Fine sha S → ∀ p, dirLook (retr sha S) (.dir d) p = gitLook src .tree id p

/-- A digest for a blob. -/
def GoodBlob (store : List Str) (id : Str) (d : Dig.Wire) : Prop :=
  ∃ c ∈ store, src.blob id = some c ∧ d = digestOf sha c

/-- All that is known is right. -/
def Inv (st : State Dig.Wire Str) : Prop := ∀ h o, st.find h = some o →
  (src.tree h ≠ none ∧ o.type = .tree ∧ GoodTree sha src st.store h o.digest) ∨
    (src.tree h = none ∧ o.type ≠ .tree ∧ GoodBlob sha src st.store h o.digest)

/-- An entry of a directory for an entry of a git tree. -/
structure Good (store : List Str) (e : Ent) (k : Str × Kind) : Prop where
  name : k.1 = e.name
  ref : ∃ n, refKind sha src (refDir sha src n) e = some k.2
  stored : ∀ w, k.2.digest = some w → ∃ c ∈ store, w = digestOf sha c
  same : ∀ S, store ⊆ S → Fine sha S → ∀ p, dirLook (retr sha S) k.2 p = gitLook src e.type e.id p

variable {sha : Str → Str} {src : Git}

theorem GoodTree.mono {s s' : List Str} (hs : s ⊆ s') {id : Str} {d : Dig.Wire} (h : GoodTree sha src s id d) :
    GoodTree sha src s' id d :=
  ⟨h.ref, let ⟨c, hc, e⟩ := h.stored; ⟨c, hs hc, e⟩, fun S hS => h.same S (List.Subset.trans hs hS)⟩

theorem GoodBlob.mono {s s' : List Str} (hs : s ⊆ s') {id : Str} {d : Dig.Wire} (h : GoodBlob sha src s id d) :
    GoodBlob sha src s' id d :=
  let ⟨c, hc, e⟩ := h
  ⟨c, hs hc, e⟩

theorem Good.mono {s s' : List Str} (hs : s ⊆ s') {e : Ent} {k : Str × Kind} (h : Good sha src s e k) :
    Good sha src s' e k :=
  ⟨h.name, h.ref, fun w hw => let ⟨c, hc, e⟩ := h.stored w hw; ⟨c, hs hc, e⟩,
    fun S hS => h.same S (List.Subset.trans hs hS)⟩

theorem Inv.put {st : State Dig.Wire Str} (h : Inv sha src st) (c : Str) : Inv sha src (st.put c) := by
  intro i o hi
  have hs : st.store ⊆ (st.put c).store := List.subset_append_left _ _
  rcases h i o hi with ⟨h1, ht, h2⟩ | ⟨h1, ht, h2⟩
  · exact .inl ⟨h1, ht, h2.mono hs⟩
  · exact .inr ⟨h1, ht, h2.mono hs⟩

theorem Inv.note {st : State Dig.Wire Str} (h : Inv sha src st) {i : Str} {o : Obj Dig.Wire}
    (ho : (src.tree i ≠ none ∧ o.type = .tree ∧ GoodTree sha src st.store i o.digest) ∨
      (src.tree i = none ∧ o.type ≠ .tree ∧ GoodBlob sha src st.store i o.digest)) : Inv sha src (st.note i o) := by
  intro j o' hj
  unfold State.find State.note at hj
  dsimp only at hj
  rw [assoc] at hj
  split at hj
  · rename_i e
    subst e
    cases hj
    exact ho
  · exact h j o' hj

theorem mem_put (st : State Dig.Wire Str) (c : Str) : c ∈ (st.put c).store :=
  List.mem_append_right _ (List.mem_singleton.2 rfl)

theorem tree_of_blob (hsep : Separate src) {i c : Str} (h : src.blob i = some c) : src.tree i = none := by
  cases ht : src.tree i with
  | none => rfl
  | some s => rw [hsep i (by rw [ht]; exact fun h => nomatch h)] at h; cases h

theorem Inv.blob (hsep : Separate src) {st : State Dig.Wire Str} (h : Inv sha src st) {i c : Str}
    (hc : src.blob i = some c) {ty : ObjectType} (ht : ty ≠ .tree) : Inv sha src ((st.put c).note i ⟨digestOf sha c, ty⟩) :=
  (h.put c).note (.inr ⟨tree_of_blob hsep hc, ht, c, mem_put st c, hc, rfl⟩)

theorem good_file {store : List Str} {e : Ent} {c : Str} (hs : c ∈ store) (h1 : e.type ≠ .tree)
    (h2 : e.type ≠ .symlink) (hc : src.blob e.id = some c) :
    Good sha src store e (e.name, .file (e.type == .executable) (digestOf sha c)) := by
  refine ⟨rfl, ⟨0, ?_⟩, fun w hw => ⟨c, hs, by cases hw; rfl⟩, fun S hS hF p => ?_⟩
  · unfold refKind
    cases ht : e.type with
    | tree => exact absurd ht h1
    | symlink => exact absurd ht h2
    | file => dsimp only; rw [hc]; rfl
    | executable => dsimp only; rw [hc]; rfl
  · cases ht : e.type with
    | tree => exact absurd ht h1
    | symlink => exact absurd ht h2
    | file =>
      cases p with
      | nil => rw [dirLook, gitLook, retr_mem hF (hS hs), hc]; rfl
      | cons n p => rfl
    | executable =>
      cases p with
      | nil => rw [dirLook, gitLook, retr_mem hF (hS hs), hc]; rfl
      | cons n p => rfl

theorem good_link {store : List Str} {e : Ent} {c : Str} (h2 : e.type = .symlink) (hc : src.blob e.id = some c) :
    Good sha src store e (e.name, .link c) := by
  refine ⟨rfl, ⟨0, ?_⟩, fun w hw => (nomatch hw), fun S hS hF p => ?_⟩
  · unfold refKind
    rw [h2]
    dsimp only
    rw [hc]
    rfl
  · rw [h2]
    cases p with
    | nil => rw [dirLook, gitLook, hc]; rfl
    | cons n p => rfl

theorem good_dir {store : List Str} {e : Ent} {d : Dig.Wire} (h2 : e.type = .tree) (h : GoodTree sha src store e.id d) :
    Good sha src store e (e.name, .dir d) := by
  refine ⟨rfl, ?_, fun w hw => by cases hw; exact h.stored, fun S hS hF p => ?_⟩
  · obtain ⟨n, hn⟩ := h.ref
    refine ⟨n, ?_⟩
    unfold refKind
    rw [h2]
    dsimp only
    rw [hn]
    rfl
  · rw [h2]
    exact h.same S hS hF p

/-- Rehashing a tree works, from all good states. -/
def Works (sub : State Dig.Wire Str → Str → Option (Dig.Wire × State Dig.Wire Str)) (sha : Str → Str) (src : Git)
    (id : Str) : Prop :=
  ∀ st, Inv sha src st → ∃ d st', sub st id = some (d, st') ∧ Inv sha src st' ∧ st.store ⊆ st'.store ∧
    GoodTree sha src st'.store id d

theorem entry_works (hsep : Separate src)
    {sub : State Dig.Wire Str → Str → Option (Dig.Wire × State Dig.Wire Str)} {e : Ent}
    (hc : Complete src e.type e.id) (hsub : e.type = .tree → Works sub sha src e.id) (ks : List (Str × Kind))
    (st : State Dig.Wire Str) (hst : Inv sha src st) : ∃ k st', entryToDir sha src sub e (nodesOf ks) st =
      some (nodesOf (ks ++ [k]), st') ∧ Inv sha src st' ∧ st.store ⊆ st'.store ∧ Good sha src st'.store e k := by
  by_cases h1 : e.type = .tree
  · have htree : src.tree e.id ≠ none := by
      rw [h1] at hc
      cases hc with
      | blob h => exact absurd rfl h
      | tree h => rw [h]; exact fun h => nomatch h
    cases hf : st.find e.id with
    | some o =>
      rcases hst _ _ hf with ⟨_, _, hg⟩ | ⟨h, _⟩
      · refine ⟨(e.name, .dir o.digest), st, ?_, hst, List.Subset.refl _, good_dir h1 hg⟩
        rw [nodesOf_append]
        unfold entryToDir
        rw [h1]
        dsimp only
        rw [hf]
        simp [fileOf, dirOf, linkOf]
      · exact absurd h htree
    | none =>
      obtain ⟨d, st', hd, hi, hs, hg⟩ := hsub h1 st hst
      refine ⟨(e.name, .dir d), st', ?_, hi, hs, good_dir h1 hg⟩
      rw [nodesOf_append]
      unfold entryToDir
      rw [h1]
      dsimp only
      rw [hf]
      dsimp only
      rw [hd]
      simp [fileOf, dirOf, linkOf]
  · have hb : ∃ c, src.blob e.id = some c := by
      generalize e.type = ty at hc h1
      generalize e.id = id at hc
      cases hc with
      | blob _ h => exact ⟨_, h⟩
      | tree h => exact absurd rfl h1
    obtain ⟨c, hb⟩ := hb
    have hs : ∀ o, st.store ⊆ ((st.put c).note e.id o).store := fun o => List.subset_append_left _ _
    by_cases h2 : e.type = .symlink
    · refine ⟨(e.name, .link c), _, ?_, hst.blob hsep hb (ty := .symlink) (by decide), hs _, good_link h2 hb⟩
      rw [nodesOf_append]
      unfold entryToDir
      rw [h2]
      dsimp only
      rw [hb]
      simp [fileOf, dirOf, linkOf]
    · cases hf : st.find e.id with
      | some o =>
        rcases hst _ _ hf with ⟨h, _⟩ | ⟨_, _, c', hc', hb', ho⟩
        · exact absurd (tree_of_blob hsep hb) h
        · rw [hb] at hb'
          cases hb'
          refine ⟨(e.name, .file (e.type == .executable) (digestOf sha c)), st, ?_, hst, List.Subset.refl _,
            good_file hc' h1 h2 hb⟩
          rw [nodesOf_append, ← ho]
          unfold entryToDir
          cases ht : e.type with
          | tree => exact absurd ht h1
          | symlink => exact absurd ht h2
          | file => dsimp only; rw [hf]; simp [fileOf, dirOf, linkOf]
          | executable => dsimp only; rw [hf]; simp [fileOf, dirOf, linkOf]
      | none =>
        refine ⟨(e.name, .file (e.type == .executable) (digestOf sha c)), _, ?_, hst.blob hsep hb h1, hs _,
          good_file (mem_put st c) h1 h2 hb⟩
        rw [nodesOf_append]
        unfold entryToDir
        cases ht : e.type with
        | tree => exact absurd ht h1
        | symlink => exact absurd ht h2
        | file => dsimp only; rw [hf]; dsimp only; rw [hb]; simp [fileOf, dirOf, linkOf]
        | executable => dsimp only; rw [hf]; dsimp only; rw [hb]; simp [fileOf, dirOf, linkOf]

theorem entries_work (hsep : Separate src)
    {sub : State Dig.Wire Str → Str → Option (Dig.Wire × State Dig.Wire Str)} :
    ∀ (l : List Ent), (∀ e ∈ l, Complete src e.type e.id) → (∀ e ∈ l, e.type = .tree → Works sub sha src e.id) →
      ∀ (ks : List (Str × Kind)) (st : State Dig.Wire Str), Inv sha src st →
        ∃ ks' st', entriesToDir sha src sub l (nodesOf ks) st = some (nodesOf (ks ++ ks'), st') ∧ Inv sha src st' ∧
          st.store ⊆ st'.store ∧ List.Forall₂ (Good sha src st'.store) l ks'
  | [], _, _, ks, st, hst => ⟨[], st, by rw [List.append_nil]; rfl, hst, List.Subset.refl _, .nil⟩
  | e :: t, hc, hsub, ks, st, hst => by
    obtain ⟨k, st1, h1, hi1, hs1, hg1⟩ :=
      entry_works hsep (hc e (List.mem_cons_self ..)) (hsub e (List.mem_cons_self ..)) ks st hst
    obtain ⟨ks', st2, h2, hi2, hs2, hg2⟩ := entries_work hsep t (fun e h => hc e (List.mem_cons_of_mem _ h))
      (fun e h => hsub e (List.mem_cons_of_mem _ h)) (ks ++ [k]) st1 hi1
    refine ⟨k :: ks', st2, ?_, hi2, List.Subset.trans hs1 hs2, .cons (hg1.mono hs2) hg2⟩
    rw [entriesToDir, h1, Option.bind_some]
    dsimp only
    rw [h2, List.append_assoc]
    rfl

theorem ref_kinds {store : List Str} : ∀ {l : List Ent} {ks : List (Str × Kind)},
    List.Forall₂ (Good sha src store) l ks → ∃ n, refKinds sha src (refDir sha src n) l = some ks
  | _, _, .nil => ⟨0, rfl⟩
  | e :: t, k :: ks, .cons h ht => by
    obtain ⟨n, hn⟩ := h.ref
    obtain ⟨m, hm⟩ := ref_kinds ht
    refine ⟨max n m, ?_⟩
    rw [refKinds, refKind_mono (fun _ _ => refDir_mono (Nat.le_max_left n m)) hn, Option.bind_some,
      refKinds_mono (fun _ _ => refDir_mono (Nat.le_max_right n m)) hm, Option.bind_some, ← h.name]

theorem names_eq {store : List Str} : ∀ {l : List Ent} {ks : List (Str × Kind)},
    List.Forall₂ (Good sha src store) l ks → ks.map Prod.fst = l.map Ent.name
  | _, _, .nil => rfl
  | _, _, .cons h ht => by rw [List.map_cons, List.map_cons, h.name, names_eq ht]

theorem look_eq {store S : List Str} (hS : store ⊆ S) (hF : Fine sha S) (n : Str) (p : List Str) :
    ∀ {l : List Ent} {ks : List (Str × Kind)}, List.Forall₂ (Good sha src store) l ks →
      ((assoc n ks).bind fun k => dirLook (retr sha S) k p) =
        (assoc n (l.map fun e => (e.name, e))).bind fun e => gitLook src e.type e.id p
  | _, _, .nil => rfl
  | e :: t, (m, k) :: ks, .cons h ht => by
    have hm : m = e.name := h.name
    rw [List.map_cons, assoc, assoc, hm]
    split
    · rw [Option.bind_some, Option.bind_some]
      exact h.same S hS hF p
    · exact look_eq hS hF n p ht

theorem good_stored {store : List Str} : ∀ {l : List Ent} {ks : List (Str × Kind)},
    List.Forall₂ (Good sha src store) l ks → ∀ k ∈ ks, ∀ w, k.2.digest = some w → ∃ c ∈ store, w = digestOf sha c
  | _, _, .nil, _, hk, _, _ => (nomatch hk)
  | _, _, .cons h ht, k, hk, w, hw => by
    rcases List.mem_cons.1 hk with e | hk
    · subst e
      exact h.stored w hw
    · exact good_stored ht k hk w hw

theorem forall₂_perm {α β : Type} {R : α → β → Prop} {l l' : List α} (h : List.Perm l l') :
    ∀ {ks : List β}, List.Forall₂ R l ks → ∃ ks', List.Forall₂ R l' ks' ∧ List.Perm ks ks' := by
  induction h with
  | nil => intro ks h; exact ⟨ks, h, .refl _⟩
  | cons x _ ih =>
    intro ks h
    cases h with
    | cons h ht =>
      obtain ⟨ks', h1, h2⟩ := ih ht
      exact ⟨_ :: ks', .cons h h1, h2.cons _⟩
  | swap x y l =>
    intro ks h
    cases h with
    | cons h ht =>
      cases ht with
      | cons h' ht => exact ⟨_ :: _ :: _, .cons h' (.cons h ht), .swap _ _ _⟩
  | trans _ _ ih1 ih2 =>
    intro ks h
    obtain ⟨k1, h1, p1⟩ := ih1 h
    obtain ⟨k2, h2, p2⟩ := ih2 h1
    exact ⟨k2, h2, p1.trans p2⟩

theorem flat_perm {g g' : Groups} (h : List.Perm g g') : List.Perm (flat g) (flat g') := h.flatMap_right _

theorem tree_works {visit : Groups → Groups} (hvisit : ∀ g, List.Perm (visit g) g) (hsep : Separate src) {id s : Str}
    {l : List Ent} (hid : src.tree id = some s) (hp : parseTree s = some l) (hn : (l.map Ent.name).Nodup)
    (hc : ∀ e ∈ l, Complete src e.type e.id) {n : Nat}
    (hsub : ∀ e ∈ l, e.type = .tree → Works (toDir sha visit src n) sha src e.id) :
    Works (toDir sha visit src (n + 1)) sha src id := by
  intro st hst
  have hperm : List.Perm (flat (visit (group l))) l :=
    List.Perm.trans (flat_perm (hvisit _)) (flat_group l)
  obtain ⟨ks, st', he, hi, hs, hg⟩ := entries_work hsep (flat (visit (group l)))
    (fun e h => hc e (hperm.mem_iff.1 h)) (fun e h => hsub e (hperm.mem_iff.1 h)) [] st hst
  obtain ⟨ks', hg', hk⟩ := forall₂_perm hperm hg
  have hn' : (ks'.map Prod.fst).Nodup := by rw [names_eq hg']; exact hn
  have hmsg : message (nodesOf ks) = message (nodesOf ks') := (message_congr hn' hk.symm).symm
  have hgood : GoodTree sha src (st'.put (message (nodesOf ks')).text).store id
      (digestOf sha (message (nodesOf ks')).text) := by
    refine ⟨?_, ⟨_, mem_put _ _, rfl⟩, ?_⟩
    · obtain ⟨m, hm⟩ := ref_kinds hg'
      exact ⟨m + 1, by rw [refDir, hid, Option.bind_some, hp, Option.bind_some, hm]; rfl⟩
    · intro S hS hF p
      have hS' : st'.store ⊆ S := List.Subset.trans (List.subset_append_left _ _) hS
      have hread : Directory.read (message (nodesOf ks')).text = some (message (nodesOf ks')) :=
        directory_read _ (message_sized fun k hk w hw =>
          let ⟨c, hc, e⟩ := good_stored hg' k hk w hw
          e ▸ digestOf_size hF (hS' hc))
      cases p with
      | nil =>
        rw [dirLook, retr_mem hF (hS (mem_put _ _)), gitLook, hid, Option.bind_some, Option.bind_some, hread, hp]
        rfl
      | cons a p =>
        rw [dirLook, retr_mem hF (hS (mem_put _ _)), gitLook, hid, Option.bind_some, Option.bind_some, hread, hp,
          Option.bind_some, Option.bind_some, ← look_eq hS' hF a p hg',
          assoc_perm hn' (entries_message ks').symm]
  refine ⟨digestOf sha (message (nodesOf ks')).text, (st'.put (message (nodesOf ks')).text).note id
    ⟨digestOf sha (message (nodesOf ks')).text, .tree⟩, ?_, (hi.put _).note (.inl ⟨?_, rfl, hgood⟩),
    List.Subset.trans hs (List.subset_append_left _ _), hgood⟩
  · rw [toDir, hid, Option.bind_some, readTreeData, hp, Option.bind_some, Option.bind_some]
    rw [show (⟨[], [], []⟩ : Nodes) = nodesOf [] from rfl, he, Option.bind_some]
    dsimp only
    rw [show createDirectory (nodesOf ([] ++ ks)).files (nodesOf ([] ++ ks)).dirs (nodesOf ([] ++ ks)).links =
      message (nodesOf ks) from rfl, hmsg]
  · rw [hid]; exact fun h => nomatch h

theorem max_fuel {P : Ent → Nat → Prop} : ∀ {l : List Ent}, (∀ e ∈ l, ∃ N, ∀ n, N ≤ n → P e n) →
    ∃ N, ∀ n, N ≤ n → ∀ e ∈ l, P e n
  | [], _ => ⟨0, fun _ _ _ h => nomatch h⟩
  | e :: t, h => by
    obtain ⟨N, hN⟩ := h e (List.mem_cons_self ..)
    obtain ⟨M, hM⟩ := max_fuel fun e he => h e (List.mem_cons_of_mem _ he)
    refine ⟨max N M, fun n hn e' he' => ?_⟩
    rcases List.mem_cons.1 he' with rfl | he'
    · exact hN n (Nat.le_trans (Nat.le_max_left _ _) hn)
    · exact hM n (Nat.le_trans (Nat.le_max_right _ _) hn) e' he'

theorem works {visit : Groups → Groups} (hvisit : ∀ g, List.Perm (visit g) g) (hsep : Separate src)
    {ty : ObjectType} {id : Str} (hc : Complete src ty id) :
    ∃ N, ∀ n, N ≤ n → ty = .tree → Works (toDir sha visit src n) sha src id := by
  induction hc with
  | blob h => exact ⟨0, fun _ _ e => absurd e h⟩
  | tree hid hp hn hc ih =>
    obtain ⟨N, hN⟩ := max_fuel (P := fun e n => e.type = .tree → Works (toDir sha visit src n) sha src e.id) ih
    refine ⟨N + 1, fun n hn' _ => ?_⟩
    obtain ⟨m, rfl⟩ : ∃ m, n = m + 1 := ⟨n - 1, by omega⟩
    exact tree_works hvisit hsep hid hp hn hc (hN m (by omega))

/-! ## Lists of objects -/

/-- What the result for an object has to be. -/
structure Result (sha : Str → Str) (src : Git) (store : List Str) (i : Obj Str) (o : Obj Dig.Wire) : Prop where
  isTree : o.type = .tree ↔ i.type = .tree
  tree : i.type = .tree → GoodTree sha src store i.digest o.digest
  blob : i.type ≠ .tree → GoodBlob sha src store i.digest o.digest

theorem Result.mono {s s' : List Str} (hs : s ⊆ s') {i : Obj Str} {o : Obj Dig.Wire} (h : Result sha src s i o) :
    Result sha src s' i o := ⟨h.isTree, fun ht => (h.tree ht).mono hs, fun ht => (h.blob ht).mono hs⟩

theorem rehash_one {visit : Groups → Groups} (hvisit : ∀ g, List.Perm (visit g) g) (hsep : Separate src) (i : Obj Str)
    (hc : Complete src i.type i.digest) : ∃ N, ∀ n, N ≤ n → ∀ st, Inv sha src st →
      ∃ o st', rehashToDir sha visit src n st i = some (o, st') ∧ Inv sha src st' ∧ st.store ⊆ st'.store ∧
        Result sha src st'.store i o := by
  obtain ⟨N, hN⟩ := works (sha := sha) hvisit hsep hc
  refine ⟨N, fun n hn st hst => ?_⟩
  have htree : i.type = .tree → src.tree i.digest ≠ none := by
    intro ht
    rw [ht] at hc
    cases hc with
    | blob h => exact absurd rfl h
    | tree h => rw [h]; exact fun h => nomatch h
  have hblob : i.type ≠ .tree → ∃ c, src.blob i.digest = some c := by
    intro ht
    generalize i.type = ty at hc ht
    generalize i.digest = id at hc
    cases hc with
    | blob _ h => exact ⟨_, h⟩
    | tree _ => exact absurd rfl ht
  unfold rehashToDir
  cases hf : st.find i.digest with
  | some o =>
    refine ⟨o, st, rfl, hst, List.Subset.refl _, ?_⟩
    rcases hst _ _ hf with ⟨h1, h2, h3⟩ | ⟨h1, h2, h3⟩
    · have ht : i.type = .tree := by
        apply Classical.byContradiction
        intro ht
        obtain ⟨c, hc⟩ := hblob ht
        exact h1 (tree_of_blob hsep hc)
      exact ⟨⟨fun _ => ht, fun _ => h2⟩, fun _ => h3, fun h => absurd ht h⟩
    · have ht : i.type ≠ .tree := fun h => htree h h1
      exact ⟨⟨fun h => absurd h h2, fun h => absurd h ht⟩, fun h => absurd h ht, fun _ => h3⟩
  | none =>
    dsimp only
    by_cases ht : i.type = .tree
    · rw [if_pos ht]
      obtain ⟨d, st', hd, hi, hs, hg⟩ := hN n hn ht st hst
      exact ⟨⟨d, .tree⟩, st', by rw [hd]; rfl, hi, hs, ⟨fun _ => ht, fun _ => rfl⟩, fun _ => hg, fun h => absurd ht h⟩
    · rw [if_neg ht]
      obtain ⟨c, hb⟩ := hblob ht
      refine ⟨⟨digestOf sha c, i.type⟩, (st.put c).note i.digest ⟨digestOf sha c, i.type⟩, by rw [hb]; rfl,
        hst.blob hsep hb ht, List.subset_append_left _ _, Iff.rfl, fun h => absurd h ht, fun _ => ⟨c, mem_put st c, hb, rfl⟩⟩

theorem rehash_all {visit : Groups → Groups} (hvisit : ∀ g, List.Perm (visit g) g) (hsep : Separate src) :
    ∀ (l : List (Obj Str)), (∀ i ∈ l, Complete src i.type i.digest) → ∃ N, ∀ n, N ≤ n → ∀ st, Inv sha src st →
      ∃ os st', rehashAll (rehashToDir sha visit src n) st l = some (os, st') ∧ Inv sha src st' ∧
        st.store ⊆ st'.store ∧ List.Forall₂ (Result sha src st'.store) l os
  | [], _ => ⟨0, fun _ _ st h => ⟨[], st, rfl, h, List.Subset.refl _, .nil⟩⟩
  | i :: t, hc => by
    obtain ⟨N, hN⟩ := rehash_one (sha := sha) hvisit hsep i (hc i (List.mem_cons_self ..))
    obtain ⟨M, hM⟩ := rehash_all hvisit hsep t fun i h => hc i (List.mem_cons_of_mem _ h)
    refine ⟨max N M, fun n hn st hst => ?_⟩
    obtain ⟨o, st1, h1, hi1, hs1, hr1⟩ := hN n (Nat.le_trans (Nat.le_max_left _ _) hn) st hst
    obtain ⟨os, st2, h2, hi2, hs2, hr2⟩ := hM n (Nat.le_trans (Nat.le_max_right _ _) hn) st1 hi1
    exact ⟨o :: os, st2, by rw [rehashAll, h1, Option.bind_some, h2]; rfl, hi2, List.Subset.trans hs1 hs2,
      .cons (hr1.mono hs2) hr2⟩

end

/-! ## Git objects for a remote end of the compatible protocol -/

/-- **C77.** Rehashing objects of git repositories, in any order of visiting tree entries, and whatever has been
rehashed before, gives digests under which the compatible CAS has the same contents: for a blob the blob, for a tree a
directory in which exactly the same paths exist, with the same contents, types and executable bits. -/
theorem C77_to_compat (sha : Str → Str) (visit : Groups → Groups) (hvisit : ∀ g, List.Perm (visit g) g) (src : Git)
    (hsep : Separate src) (store : List Str) (objs : List (Obj Str)) (hc : ∀ i ∈ objs, Complete src i.type i.digest) :
    ∃ N, ∀ n, N ≤ n → ∃ os st, rehashAll (rehashToDir sha visit src n) ⟨[], store⟩ objs = some (os, st) ∧
      store ⊆ st.store ∧ List.Forall₂ (fun i o => (o.type = .tree ↔ i.type = .tree) ∧
        ∀ S, st.store ⊆ S → Fine sha S →
          (i.type = .tree → ∀ p, dirLook (retr sha S) (.dir o.digest) p = gitLook src .tree i.digest p) ∧
          (i.type ≠ .tree → retr sha S o.digest = src.blob i.digest)) objs os := by
  obtain ⟨N, hN⟩ := rehash_all (sha := sha) hvisit hsep objs hc
  refine ⟨N, fun n hn => ?_⟩
  obtain ⟨os, st, h, _, hs, hr⟩ := hN n hn ⟨[], store⟩ fun _ _ h => nomatch h
  refine ⟨os, st, h, hs, hr.imp fun i o ho => ⟨ho.isTree, fun S hS hF => ⟨fun ht => (ho.tree ht).same S hS hF,
    fun ht => ?_⟩⟩⟩
  obtain ⟨c, hc, hb, hd⟩ := ho.blob ht
  rw [hd, hb, retr_mem hF (hS hc)]

theorem forall₂_zip {α β : Type} {R : α → β → Prop} : ∀ {l : List α} {k : List β}, List.Forall₂ R l k →
    ∀ {a : α} {b : β}, (a, b) ∈ l.zip k → R a b
  | _, _, .nil, _, _, h => (nomatch h)
  | _, _, .cons h t, a, b, hm => by
    rw [List.zip_cons_cons] at hm
    rcases List.mem_cons.1 hm with e | hm
    · cases e
      exact h
    · exact forall₂_zip t hm

/-- **C77.** The digest is a function of the object: it does not depend on what has been rehashed before, on the
order in which entries are visited, or on the content of the CAS. -/
theorem C77_same (sha : Str → Str) (visit visit' : Groups → Groups) (hvisit : ∀ g, List.Perm (visit g) g)
    (hvisit' : ∀ g, List.Perm (visit' g) g) (src : Git) (hsep : Separate src) (store store' : List Str)
    (objs objs' : List (Obj Str)) (hc : ∀ i ∈ objs, Complete src i.type i.digest)
    (hc' : ∀ i ∈ objs', Complete src i.type i.digest) :
    ∃ N, ∀ n n', N ≤ n → N ≤ n' → ∀ os os' st st',
      rehashAll (rehashToDir sha visit src n) ⟨[], store⟩ objs = some (os, st) →
      rehashAll (rehashToDir sha visit' src n') ⟨[], store'⟩ objs' = some (os', st') →
      ∀ i i' o o', (i, o) ∈ objs.zip os → (i', o') ∈ objs'.zip os' → i.digest = i'.digest → o.digest = o'.digest := by
  obtain ⟨N, hN⟩ := rehash_all (sha := sha) hvisit hsep objs hc
  obtain ⟨M, hM⟩ := rehash_all (sha := sha) hvisit' hsep objs' hc'
  refine ⟨max N M, fun n n' hn hn' os os' st st' h h' i i' o o' hi hi' e => ?_⟩
  obtain ⟨_, _, g, _, _, hr⟩ := hN n (Nat.le_trans (Nat.le_max_left _ _) hn) ⟨[], store⟩ fun _ _ h => nomatch h
  obtain ⟨_, _, g', _, _, hr'⟩ := hM n' (Nat.le_trans (Nat.le_max_right _ _) hn') ⟨[], store'⟩ fun _ _ h => nomatch h
  rw [h] at g
  rw [h'] at g'
  cases g
  cases g'
  have r := forall₂_zip hr hi
  have r' := forall₂_zip hr' hi'
  have key : ∀ (j : Obj Str), Complete src j.type j.digest → (j.type = .tree ↔ src.tree j.digest ≠ none) := by
    intro j hj
    constructor
    · intro ht
      rw [ht] at hj
      cases hj with
      | blob h => exact absurd rfl h
      | tree h => rw [h]; exact fun h => nomatch h
    · intro h
      generalize j.type = ty at hj
      generalize j.digest = id at hj h
      cases hj with
      | blob _ hb => exact absurd (tree_of_blob hsep hb) h
      | tree => rfl
  have hk := key i (hc i (List.of_mem_zip hi).1)
  have hk' := key i' (hc' i' (List.of_mem_zip hi').1)
  rw [← e] at hk'
  by_cases ht : i.type = .tree
  · obtain ⟨n, g1⟩ := (r.tree ht).ref
    obtain ⟨m, g2⟩ := (r'.tree (hk'.2 (hk.1 ht))).ref
    rw [← e] at g2
    exact refDir_unique g1 g2
  · obtain ⟨c, _, g1, e1⟩ := r.blob ht
    obtain ⟨c', _, g2, e2⟩ := r'.blob (fun h => ht (hk.2 (hk'.1 h)))
    rw [← e, g1] at g2
    cases g2
    rw [e1, e2]

end Verif.Rehash
