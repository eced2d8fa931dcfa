import Verif.Mr.Model

/-!
# What roots are meant to be
-/

namespace Verif.Mr

open Verif.Symlinks (Node Mode Val)

variable (E : Env)

/-- Hashes are different for different things. -/
structure Env.Good : Prop where
  blob : ∀ a b, E.blobId a = E.blobId b → a = b
  tree : ∀ a b, E.treeId a = E.treeId b → a = b
  list : ∀ a b, E.listId a = E.listId b → a = b
  apart : ∀ a b, E.blobId a ≠ E.treeId b

/-- `n'` is obtained from the directory `n` by resolving its symbolic links (C35). -/
def Resolves (m : Mode) (n n' : Node) : Prop := ∃ readable p, Val n m readable Path.dot ⟨n', p⟩

/-- What the description of an archive stands for: the archive of the given hash, extracted; of this what is at the given place; and of
this the symbolic links resolved if asked for. -/
def Contents (k : ArchiveRepo) (n : Node) : Prop :=
  ∃ c es n₀, E.blobId c = k.archive.hash ∧ E.extract k.type c = some es ∧ (Node.tree es).find k.subdir = some n₀ ∧
    match k.special with
    | none => n = n₀
    | some m => isTree n₀ = true ∧ isTree n = true ∧ Resolves m n₀ n

/-- The directory with the given files. -/
def dirOf (l : List (Str × Str × Bool)) : Node := .tree (l.map fun e => (e.1, .file e.2.1 e.2.2))

/-- What the names, hashes, and types of files stand for: the directory with files of this name, type, and with this hash. -/
def Files (l : List (Str × Str × Bool)) (n : Node) : Prop :=
  ∃ fs : List (Str × Str × Bool), fs.map (fun e => (e.1, E.blobId e.2.1, e.2.2)) = l ∧ n = dirOf fs

/-- What a commit stands for: the directory committed, and of this what is at the given place. -/
def Committed (hash : Str) (subdir : List Str) (n : Node) : Prop :=
  ∃ es, E.commit hash = some es ∧ (Node.tree es).find subdir = some n

/-- What a path stands for: if it is in the user's repository (`user`), what is committed there, and otherwise the directory. -/
def Placed (path : Str) (user : Bool) (n : Node) : Prop :=
  if user = true then ∃ h sub, (h, sub) ∈ E.heads path ∧ Committed E h sub n else n ∈ E.dirs path ∧ isTree n = true

/-- The object is kept: it is part of a tree kept by a tag, all of which is there. -/
def Kept (g : Gen) (n : Node) : Prop := ∃ r ∈ g.tags, n ∈ below r ∧ ∀ m ∈ below r, m ∈ g.objs

/-- Answers as they should be: resolving symbolic links gives the resolved tree; the serve endpoint gives the tree for the archive or
commit asked for; it has the trees of which it says that it has them, or that it set them up or took them (`served`); trees asked for by
their hash have this hash (for CAS, this is C19); and paths are what they are. -/
def Honest (served : Str → Prop) : Query → Answer → Prop
  | .resolve m n, .node n' => Resolves m n n'
  | .serveArchive h ty sub sp, .text t =>
    (∃ n, Contents E ⟨⟨h, none, [], [], none, none⟩, ty, sub, sp, false⟩ n ∧ gid E n = t) ∧ served t
  | .serveForeign _ _ _, .text t => served t
  | .serveDistdir _ _, .text t => served t
  | .checkRoot t, .yes => served t
  | .upload t, .yes => served t
  | .serveGet t, .yes => served t
  | .serveCommit h sub _, .text t => (∃ n, Committed E h sub n ∧ gid E n = t) ∧ served t
  | .localDir t, .node n => gid E n = t
  | .nativeDir t, .node n => gid E n = t
  | .serveDir t, .node n => gid E n = t
  | .whereIs p, .texts (h :: sub) => (h, sub) ∈ E.heads p
  | .whereIs p, .node n => n ∈ E.dirs p
  | _, _ => True

/-- What a generation promises. -/
structure GenOk (g : Gen) : Prop where
  tags : ∀ r ∈ g.tags, ∀ n ∈ below r, n ∈ g.objs
  arch : ∀ ty h t, ((ty, h), t) ∈ g.arch →
    ∃ c es, E.blobId c = h ∧ E.extract ty c = some es ∧ t = gid E (.tree es) ∧ Kept g (.tree es)
  special : ∀ m t t', ((m, t), t') ∈ g.special →
    ∃ es n, t = gid E (.tree es) ∧ isTree n = true ∧ Resolves m (.tree es) n ∧ t' = gid E n ∧ Kept g n
  dist : ∀ k t, (k, t) ∈ g.dist → ∃ l n, k = E.listId l ∧ Files E l n ∧ t = gid E n ∧ Kept g n
  commits : ∀ h ∈ g.commits, ∃ es, E.commit h = some es ∧ ∀ n ∈ below (.tree es), n ∈ g.objs
  closed : Closed g.objs
  com : ∀ h t, (h, t) ∈ g.com → ∃ es, E.commit h = some es ∧ t = gid E (.tree es) ∧ (E.tidy = true → Node.tree es ∈ g.objs)

/-- Everything promised. -/
structure Inv (w : World) : Prop where
  young : GenOk E w.young
  old : ∀ g ∈ w.old, GenOk E g
  user : RepoOk E w.user

/-- What is there, stays. -/
structure Grows (w w' : World) : Prop where
  cas : ∀ c ∈ w.cas, c ∈ w'.cas
  objs : ∀ n ∈ w.young.objs, n ∈ w'.young.objs
  tags : ∀ n ∈ w.young.tags, n ∈ w'.young.tags
  arch : ∀ k, (read k w.young.arch).isSome → (read k w'.young.arch).isSome
  special : ∀ k, (read k w.young.special).isSome → (read k w'.young.special).isSome
  dist : ∀ k, (read k w.young.dist).isSome → (read k w'.young.dist).isSome
  old : ∀ (i : Nat) (g : Gen), w.old[i]? = some g → ∃ g' : Gen, w'.old[i]? = some g' ∧ (∀ n ∈ g.objs, n ∈ g'.objs) ∧ (∀ n ∈ g.tags, n ∈ g'.tags) ∧
    ∀ h ∈ g.commits, h ∈ g'.commits
  commits : ∀ h ∈ w.young.commits, h ∈ w'.young.commits
  com : ∀ k, (read k w.young.com).isSome → (read k w'.young.com).isSome
  userObjs : ∀ n ∈ w.user.objs, n ∈ w'.user.objs
  userCommits : ∀ h ∈ w.user.commits, h ∈ w'.user.commits

/-- The rules all tasks keep to. -/
def rules (served : Str → Prop) : Rules World Query Answer where
  inv := Inv E
  grows := Grows
  refl := fun _ => ⟨fun _ h => h, fun _ h => h, fun _ h => h, fun _ h => h, fun _ h => h, fun _ h => h,
    fun _ g h => ⟨g, h, fun _ h => h, fun _ h => h, fun _ h => h⟩, fun _ h => h, fun _ h => h, fun _ h => h, fun _ h => h⟩
  trans := fun h1 h2 => ⟨fun c h => h2.cas c (h1.cas c h), fun c h => h2.objs c (h1.objs c h), fun c h => h2.tags c (h1.tags c h),
    fun c h => h2.arch c (h1.arch c h), fun c h => h2.special c (h1.special c h), fun c h => h2.dist c (h1.dist c h),
    fun i g h => by
      obtain ⟨g1, a1, a2, a3, a4⟩ := h1.old i g h
      obtain ⟨g2, b1, b2, b3, b4⟩ := h2.old i g1 a1
      exact ⟨g2, b1, fun n hn => b2 n (a2 n hn), fun n hn => b3 n (a3 n hn), fun n hn => b4 n (a4 n hn)⟩,
    fun c h => h2.commits c (h1.commits c h), fun c h => h2.com c (h1.com c h), fun c h => h2.userObjs c (h1.userObjs c h),
    fun c h => h2.userCommits c (h1.userCommits c h)⟩
  honest := Honest E served

end Verif.Mr
