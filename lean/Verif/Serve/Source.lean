import Verif.Mr.All

/-!
# The serve endpoint: trees of commits, archives, and files

Model of `src/buildtool/serve_api/serve_service/source_tree.cpp`: requests for the tree of a commit, of an archive, of a list of files,
for a blob or a tree to be put to the remote, whether a tree is known, and to take a tree from the remote. The storage of the endpoint
is one as in `Verif.Mr`; besides, there are the repositories it is configured with.

Simplifications, besides those in `Verif.Mr.Model`: Locks are always obtained. The digest in the reply (source_tree.cpp:403-469) is not
modelled. The configured repositories are not changed while a request is handled. A program that fails stands for a reply
`INTERNAL_ERROR`, or, when a resolved tree could not be tagged, `RESOLVE_ERROR`. Undefined behaviour is the reply `crash`. That
`ServeDistdirTree` also stores the tree in the CAS (1180) has no effect on git repositories.
-/

namespace Verif.Mr.Source

open Verif.Symlinks (Node Mode)
open Verif.Dig (ObjectType)

/-- Status of a reply (just_serve.proto:42-54, 111-129, 172-184, 206-218). -/
inductive Status where
  | ok
  | notFound
  | syncError
  | unpackError
  | resolveError
  | internal
  deriving DecidableEq

/-- The reply, with the tree if it is set; or undefined behaviour. -/
inductive Reply where
  | crash
  | answer (s : Status) (tree : Option Str)
  deriving DecidableEq

/-- What is given: the repositories configured (`serve_config_.known_repositories`; `none` for one that cannot be opened); whether the
remote is native; the part of a text taken as identifier by `git_oid_fromstr` (its first forty characters); whether a text is an
identifier (forty hexadecimal digits: hash_info.cpp:74-101); the file a text stands for when appended to the path of a directory (the
text itself, but `x/../y` stands for `y`); and whether it consists of hexadecimal digits (hex_string.hpp, `FromHexString`). -/
structure Site where
  known : List (Option Repo)
  native : Bool
  cut : Str → Str
  hashy : Str → Bool
  place : Str → Str
  hex : Str → Bool

/-- Identifiers stand for themselves. -/
structure Site.Good (S : Site) : Prop where
  cut : ∀ h, S.hashy h = true → S.cut h = h
  place : ∀ h, S.hashy h = true → S.place h = h

/-- `git_oid_fromstr`. -/
def Site.oid (S : Site) (h : Str) : Option Str := if S.hashy (S.cut h) = true then some (S.cut h) else none

/-- Outcome of a lookup (git_types.hpp, `GitLookupError`). -/
inductive Lookup (α : Type) where
  | found (a : α)
  | notFound
  | fatal

/-- The loop over the configured repositories: a failure ends the search (e.g. source_tree.cpp:262-301). -/
def searchKnown {α : Type} (f : Repo → Lookup α) : List (Option Repo) → Lookup (α × Repo)
  | [] => .notFound
  | none :: _ => .fatal
  | some r :: rs =>
    match f r with
    | .found a => .found (a, r)
    | .fatal => .fatal
    | .notFound => searchKnown f rs

variable (E : Env) (S : Site)

/-- source_tree.cpp:192-229 (`GetBlobFromRepo`). -/
def blobIn (h : Str) (l : List Node) : Lookup Str :=
  match S.oid h with
  | none => .fatal
  | some o =>
    match findBlob E o l with
    | some c => .found c
    | none => .notFound

/-- git_repo.cpp:1813-1840 (`IsTreeInRepo`). -/
def treeIn (t : Str) (l : List Node) : Lookup Unit :=
  match S.oid t with
  | none => .fatal
  | some o =>
    match findTree E o l with
    | some _ => .found ()
    | none => .notFound

/-- source_tree.cpp:157-185 (`GetSubtreeFromTree`). The identifier is always one written by the program itself. -/
def subtreeIn (t : Str) (sub : List Str) (l : List Node) : Lookup Str :=
  if sub = [] then .found t
  else
    match findTree E t l with
    | none => .notFound
    | some n =>
      match n.find sub with
      | some m => .found (gid E m)
      | none => .notFound

/-- source_tree.cpp:129-155, git_repo.cpp:964-1060 (`GetSubtreeFromCommit`). -/
def commitIn (h : Str) (sub : List Str) (r : Repo) : Lookup Str :=
  match S.oid h with
  | none => .fatal
  | some o =>
    if o ∈ r.commits then
      match E.commit o with
      | none => .notFound
      | some es =>
        match (Node.tree es).find sub with
        | some m => .found (gid E m)
        | none => .fatal
    else .notFound

/-- source_tree.cpp:339-401 (`SyncGitEntryToCas`) for trees, 320-337 (`SyncArchive`), 241-247: the tree is put to the remote, if this is
asked for; `objs` are the objects of the repository it is taken from. -/
def sync (objs : World → List Node) (t : Str) (s : Bool) : Task Reply :=
  if s = true then do
    match ← look fun w => findTree E t (objs w) with
    | none => .ret (.answer .syncError (some t))
    | some _ =>
      match ← question (.pushTree t) with
      | .yes => .ret (.answer .ok (some t))
      | _ => .ret (.answer .syncError (some t))
  else .ret (.answer .ok (some t))

/-- The objects in the git cache. -/
def cache (w : World) : List Node := w.young.objs

/-- source_tree.cpp:231-318 (`ServeCommitTree`). -/
def serveCommit (h : Str) (sub : List Str) (s : Bool) : Task Reply := do
  match ← look fun w => commitIn E S h sub w.young.repo with
  | .found t => sync E cache t s
  | .fatal => .fail
  | .notFound =>
    match searchKnown (commitIn E S h sub) S.known with
    | .found (t, r) => sync E (fun _ => r.objs) t s
    | .fatal => .fail
    | .notFound => .ret (.answer .notFound none)

/-- source_tree.cpp:476-614 (`ResolveContentTree`); `objs` are the objects of the repository the tree is in. The resolved tree is put into
the git cache, but is put to the remote from the repository of the unresolved one. -/
def resolveTree (objs : World → List Node) (t : Str) (sp : Option Mode) (s : Bool) : Task Reply :=
  match sp with
  | none => sync E objs t s
  | some m => do
    match ← look fun w => read (m, t) w.young.special with
    | some t' => sync E objs t' s
    | none =>
      match ← look fun w => findTree E t (objs w) with
      | none => .ret (.answer .resolveError none)
      | some n =>
        match ← question (.resolve m n) with
        | .node n' => do
          change (World.addObjs (below n'))
          tryTo (World.keep E (gid E n'))
          change (World.writeSpecial m t (gid E n'))
          sync E objs (gid E n') s
        | _ => .ret (.answer .resolveError none)

/-- source_tree.cpp:782-863: the content of the archive. If it is in the git cache, then after having been added to the CAS, an
error is read from a result that is none (802; expected.hpp:70-72 follows a null pointer). If the text is no identifier, there is no
digest, so that the remote is not asked, and a path that is not there is used (862). -/
def getContent (h : Str) : Task (Reply ⊕ Str) := do
  match ← look fun w => if S.hashy h = true then w.content E h else none with
  | some c => .ret (.inr c)
  | none =>
    match ← look fun w => blobIn E S h w.young.objs with
    | .found c => do
      change (World.store c)
      .ret (.inl .crash)
    | .fatal => .fail
    | .notFound =>
      match searchKnown (fun r => blobIn E S h r.objs) S.known with
      | .found (c, _) => do
        change (World.store c)
        .ret (.inr c)
      | .fatal => .fail
      | .notFound =>
        if S.hashy h = true then do
          match ← question (.remoteBlob h) with
          | .text c => do
            change (World.store c)
            let c' ← need fun w => w.content E h
            .ret (.inr c')
          | _ => .ret (.inl (.answer .notFound none))
        else .ret (.inl .crash)

/-- source_tree.cpp:614-684 (`ArchiveImportToGit`), and 865-873 before. The file remembering the tree is named by the text given. -/
def importArchive (h ty : Str) (sub : List Str) (sp : Option Mode) (s : Bool) (c : Str) : Task Reply :=
  match E.extract ty c with
  | none => .ret (.answer .unpackError none)
  | some es => do
    let t ← importDir E es
    change (World.writeArch ty (S.place h) t)
    match ← look fun w => subtreeIn E t sub w.young.objs with
    | .found u => resolveTree E cache u sp s
    | _ => .fail

/-- source_tree.cpp:692-898 (`ServeArchiveTree`). -/
def serveArchive (h ty : Str) (sub : List Str) (sp : Option Mode) (s : Bool) : Task Reply := do
  match ← look fun w => read (ty, S.place h) w.young.arch with
  | some t =>
    match ← look fun w => subtreeIn E t sub w.young.objs with
    | .found u => resolveTree E cache u sp s
    | .fatal => .fail
    | .notFound =>
      match searchKnown (fun r => subtreeIn E t sub r.objs) S.known with
      | .found (u, r) => resolveTree E (fun _ => r.objs) u sp s
      | _ => .fail
  | none => do
    match ← getContent E S h with
    | .inl r => .ret r
    | .inr c => importArchive E S h ty sub sp s c

/-- source_tree.cpp:1033-1140: the content of one file; nothing if it is there. -/
def getFile (h : Str) : Task (Option Reply) := do
  match ← look fun w => if S.native = true ∧ S.hashy h = true then w.content E h else none with
  | some _ => .ret none
  | none =>
    match ← look fun w => blobIn E S h w.young.objs with
    | .found c => do
      change (World.store c)
      .ret none
    | .fatal => .fail
    | .notFound =>
      match searchKnown (fun r => blobIn E S h r.objs) S.known with
      | .found (c, _) => do
        change (World.store c)
        .ret none
      | .fatal => .fail
      | .notFound =>
        if S.native = true ∧ S.hashy h = true then do
          match ← question (.remoteBlob h) with
          | .text c => do
            change (World.store c)
            .ret none
          | .no => .ret (some (.answer .notFound none))
          | _ => .fail
        else .ret (some (.answer .notFound none))

/-- source_tree.cpp:1024-1157: all files, in the order of the request. Also, names that cannot be put into a tree are refused (1164:
`CreateShallowTree`). -/
def getFiles : List (Str × Str × Bool) → Task (Option Reply)
  | [] => .ret none
  | (x, h, _) :: l => do
    match ← getFile E S h with
    | some r => .ret (some r)
    | none => if S.hex h = true ∧ fileName x = true then getFiles l else .fail

/-- The files, as sorted by name. Simplification: the names are different. -/
def sorted (l : List (Str × Str × Bool)) : List (Str × Str × Bool) :=
  l.foldl (fun m e => OMap.insertList (fun _ new => new) e.1 e.2 m) []

/-- source_tree.cpp:1145-1172: the identifier of the tree with the given files. -/
def filesTree (l : List (Str × Str × Bool)) : Str :=
  E.treeId (l.map fun e => (e.1, if e.2.2 = true then ObjectType.executable else .file, S.cut e.2.1))

/-- source_tree.cpp:904-941: files are linked from the CAS. What was found in a repository has been stored under its own hash. -/
def linkFiles : List (Str × Str × Bool) → Task (List (Str × Node))
  | [] => .ret []
  | (x, h, e) :: l => do
    let c ← need fun w => w.content E (S.cut h)
    let es ← linkFiles l
    .ret ((x, .file c e) :: es)

/-- source_tree.cpp:1208-1239: whether a configured repository has the tree. For one that cannot be opened, a value is read from a result
that has none (1217; expected.hpp:61-63 follows a null pointer). -/
def knownTree (t : Str) : List (Option Repo) → Option (Option Repo)
  | [] => some none
  | none :: _ => none
  | some r :: rs =>
    match findTree E t r.objs with
    | some _ => some (some r)
    | none => knownTree t rs

/-- source_tree.cpp:900-986 (`DistdirImportToGit`). -/
def importFiles (l : List (Str × Str × Bool)) (s : Bool) : Task Reply := do
  let es ← linkFiles E S l
  let t ← importDir E es
  if t = filesTree E S l then sync E cache t s else .fail

/-- source_tree.cpp:988-1249 (`ServeDistdirTree`). -/
def serveDistdir (files : List (Str × Str × Bool)) (s : Bool) : Task Reply := do
  match ← getFiles E S files with
  | some r => .ret r
  | none =>
    match ← look fun w => findTree E (filesTree E S (sorted files)) w.young.objs with
    | some _ => sync E cache (filesTree E S (sorted files)) s
    | none =>
      match knownTree E (filesTree E S (sorted files)) S.known with
      | none => .ret .crash
      | some (some r) => sync E (fun _ => r.objs) (filesTree E S (sorted files)) s
      | some none => importFiles E S (sorted files) s

/-- source_tree.cpp:339-401 (`SyncGitEntryToCas`) for blobs, also 1327-1344. -/
def syncBlob (h : Str) : Task Reply :=
  if S.hashy h = true then do
    match ← question (.pushBlob h) with
    | .yes => .ret (.answer .ok none)
    | _ => .ret (.answer .syncError none)
  else .fail

/-- source_tree.cpp:1251-1357 (`ServeContent`). -/
def serveContent (h : Str) : Task Reply := do
  match ← look fun w => blobIn E S h w.young.objs with
  | .found _ => syncBlob S h
  | .fatal => .fail
  | .notFound =>
    match searchKnown (fun r => blobIn E S h r.objs) S.known with
    | .found _ => syncBlob S h
    | .fatal => .fail
    | .notFound =>
      if S.hashy h = true then do
        match ← look fun w => w.content E h with
        | some _ => syncBlob S h
        | none => .ret (.answer .notFound none)
      else .fail

/-- source_tree.cpp:339-401 (`SyncGitEntryToCas`) for trees known, also 1450-1465. -/
def syncTree (t : Str) : Task Reply :=
  if S.hashy t = true then do
    match ← question (.pushTree t) with
    | .yes => .ret (.answer .ok none)
    | _ => .ret (.answer .syncError none)
  else .fail

/-- source_tree.cpp:1359-1467 (`ServeTree`). -/
def serveTree (t : Str) : Task Reply := do
  match ← look fun w => treeIn E S t w.young.objs with
  | .found _ => syncTree S t
  | .fatal => .fail
  | .notFound =>
    match searchKnown (fun r => treeIn E S t r.objs) S.known with
    | .found _ => syncTree S t
    | .fatal => .fail
    | .notFound =>
      if S.hashy t = true then do
        match ← question (.localTree t) with
        | .yes => syncTree S t
        | _ => .ret (.answer .notFound none)
      else .fail

/-- source_tree.cpp:1472-1593 (`CheckRootTree`). -/
def checkRoot (t : Str) : Task Reply := do
  match ← look fun w => treeIn E S t w.young.objs with
  | .found _ => .ret (.answer .ok none)
  | .fatal => .fail
  | .notFound =>
    match searchKnown (fun r => treeIn E S t r.objs) S.known with
    | .found _ => .ret (.answer .ok none)
    | .fatal => .fail
    | .notFound =>
      if S.hashy t = true then do
        match ← question (.localDir t) with
        | .node (.tree es) => do
          let t' ← importDir E es
          if t' = t then .ret (.answer .ok none) else .fail
        | .no => .ret (.answer .notFound none)
        | _ => .fail
      else .fail

/-- source_tree.cpp:1601-1692 (`GetRemoteTree`), for a native remote. That the tree is the one expected is not checked. -/
def getRemote (t : Str) : Task Reply :=
  if S.hashy t = true then do
    match ← question (.nativeDir t) with
    | .node (.tree es) => do
      let _ ← importDir E es
      .ret (.answer .ok none)
    | _ => .fail
  else .fail

/-- Requests. -/
inductive Request where
  | commit (hash : Str) (subdir : List Str) (sync : Bool)
  | archive (content type : Str) (subdir : List Str) (special : Option Mode) (sync : Bool)
  | distdir (files : List (Str × Str × Bool)) (sync : Bool)
  | content (hash : Str)
  | tree (tree : Str)
  | check (tree : Str)
  | get (tree : Str)

/-- Handling a request. -/
def serve : Request → Task Reply
  | .commit h sub s => serveCommit E S h sub s
  | .archive h ty sub sp s => serveArchive E S h ty sub sp s
  | .distdir l s => serveDistdir E S l s
  | .content h => serveContent E S h
  | .tree t => serveTree E S t
  | .check t => checkRoot E S t
  | .get t => getRemote E S t

/-! ## What the client makes of it -/

/-- src/buildtool/serve_api/remote/source_tree_client.cpp:82-250: the request for a question, as asked by just-mr. -/
def requestOf : Query → Option Request
  | .serveCommit h sub s => some (.commit h sub s)
  | .serveArchive h ty sub sp => some (.archive h ty sub sp false)
  | .serveForeign h x e => some (.distdir [(x, h, e)] false)
  | .serveDistdir l s => some (.distdir (l.map fun e => (e.1, e.2, false)) s)
  | .checkRoot t => some (.check t)
  | .serveGet t => some (.get t)
  | .upload t => some (.get t)
  | _ => none

/-- source_tree_client.cpp:98-120, 140-162, 184-206, 226-242, 325-340: the answer for just-mr. The connection being lost is an error. -/
def answerOf : Reply → Answer
  | .crash => .error
  | .answer .ok (some t) => .text t
  | .answer .ok none => .yes
  | .answer .notFound _ => .no
  | .answer _ _ => .error

end Verif.Mr.Source
