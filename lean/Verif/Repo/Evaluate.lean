import Verif.Util.OMap

/-!
# Evaluation of the roots that have to be computed before the build: model

`src/buildtool/computed_roots/evaluate.cpp`, with what it uses of `common/repository_config.{hpp,cpp}`,
`computed_roots/lookup_cache.cpp`, `computed_roots/inquire_serve.cpp` and `file_system/precomputed_root.hpp`.

What the cache, the serve endpoint, the build and git answer is arbitrary; the specification says which answers are
right. The configuration of a computed root is represented by its text. Reports and statistics are left out, as are
conversions between hash functions. The map of the roots is `AsyncMapConsumer` (C25, C26): a key is created once, and it
continues once all keys it asked for have a value.
-/

namespace Verif.Evaluate

open Verif

/-- precomputed_root.hpp:30-61, 75-77 (`ComputedRoot`, `TreeStructureRoot`, `PrecomputedRoot`). -/
inductive Pre
  | computed (repository module name config : Str) (absent : Bool)
  | tree (repository : Str) (absent : Bool)
  deriving DecidableEq

/-- precomputed_root.cpp (`GetReferencedRepository`). -/
def Pre.repository : Pre → Str
  | .computed r _ _ _ _ => r
  | .tree r _ => r

/-- precomputed_root.hpp:38, 55. -/
def Pre.absent : Pre → Bool
  | .computed _ _ _ _ a => a
  | .tree _ a => a

/-- file_root.hpp:121-122: a root in the file system, one in a git repository, one that is absent, or one to be computed. -/
inductive Root
  | file (path : Str)
  | present (tree : Str)
  | absent (tree : Str)
  | pre (key : Pre)
  deriving DecidableEq

/-- file_root.hpp:431-440 (`GetTreeHash`). -/
def Root.treeHash : Root → Option Str
  | .present t => some t
  | .absent t => some t
  | _ => none

/-- file_root.hpp:763-765 (`IsAbsent`). -/
def Root.isAbsent : Root → Bool
  | .absent _ => true
  | _ => false

/-- file_root.hpp:783-789 (`GetPrecomputedDescription`). -/
def Root.description : Root → Option Pre
  | .pre k => some k
  | _ => none

/-- repository_config.hpp:43-57 (`RepositoryInfo`), without the names of files. -/
structure Info where
  workspace : Root
  target : Root
  rule : Root
  expression : Root
  names : List (Str × Str)
  deriving DecidableEq

/-- The four roots. -/
def Info.roots (i : Info) : List Root := [i.workspace, i.target, i.rule, i.expression]

/-- evaluate.cpp:79-87, 108-111: the descriptions of the roots of a repository that are to be computed. -/
def Info.pres (i : Info) : List Pre := i.roots.filterMap Root.description

/-- repository_config.hpp:184: the repositories. -/
abbrev Config := List (Str × Info)

/-- evaluate.cpp:112-114: the repositories a repository refers to, in order. -/
def visitAll (visit : Str → List Pre × List Str → Option (List Pre × List Str)) :
    List (Str × Str) → List Pre × List Str → Option (List Pre × List Str)
  | [], a => some a
  | (_, m) :: t, a => (visit m a).bind (visitAll visit t)

/-- evaluate.cpp:89-115 (`TraverseRepoForComputedRoots`): the roots and the repositories seen; there is no result if the
recursion is deeper than the bound, which is shown not to happen. -/
def visit (C : Config) : Nat → Str → List Pre × List Str → Option (List Pre × List Str)
  | 0, _, _ => none
  | n + 1, m, (roots, seen) =>
    if m ∈ seen then some (roots, seen)
    else
      match assoc m C with
      | none => some (roots, m :: seen)
      | some i => visitAll (visit C n) i.names (roots ++ i.pres, m :: seen)

/-- evaluate.cpp:117-137 (`GetRootDeps`). The roots are sorted and repetitions are removed, which is left out, as only
the set of roots matters. -/
def rootDeps (C : Config) (n : Str) : List Pre :=
  match visit C (C.length + 2) n ([], []) with
  | none => []
  | some (roots, _) => roots

/-- repository_config.cpp:163-169: one root. -/
def Root.set (r : Root) (k : Pre) (v : Root) : Root := if r.description = some k then v else r

/-- repository_config.cpp:160-174: one repository. -/
def Info.set (i : Info) (k : Pre) (v : Root) : Info :=
  ⟨i.workspace.set k v, i.target.set k v, i.rule.set k v, i.expression.set k v, i.names⟩

/-- repository_config.cpp:157-175 (`SetPrecomputedRoot`). -/
def setRoot (k : Pre) (v : Root) (C : Config) : Config := C.map fun p => (p.1, p.2.set k v)

/-- What the evaluation of a root does next: it fails with an error, it dereferences a null pointer, it sets the root,
it asks the serve endpoint, or it builds. -/
inductive Next
  | fail
  | crash
  | set (r : Root)
  | inquire
  | build
  deriving DecidableEq

/-- The answers of the cache, of the check that the tree is in the local git repository, and of opening it as root. -/
inductive Lookup
  | error
  | miss
  | hit (tree : Str) (inGit : Option Bool) (opened : Bool)
  deriving DecidableEq

/-- evaluate.cpp:261-271 and inquire_serve.cpp:47-57, until the key of the repository is needed: an absent root is asked
from the serve endpoint only with native hashing. The root of the targets of the repository is dereferenced
unconditionally. -/
def ask (serve native absent : Bool) (target : Option Root) : Next :=
  if absent && native then
    match target with
    | none => .crash
    | some r => if r.isAbsent && serve then .inquire else .build
  else .build

/-- evaluate.cpp:218-259. -/
def afterLookup (next : Next) : Lookup → Next
  | .error => .fail
  | .miss => next
  | .hit _ none _ => .fail
  | .hit _ (some false) _ => next
  | .hit t (some true) opened => if opened then .set (.present t) else .fail

/-- evaluate.cpp:270-289: the answer of the serve endpoint. -/
def afterInquire : Option Str → Next
  | some t => .set (.absent t)
  | none => .build

/-- The answers when building: the tree built and imported to git, whether it could be opened, and, of the serve endpoint,
whether it knows the tree, and whether it was uploaded. -/
structure Built where
  tree : Option Str
  opened : Bool
  known : Option Bool
  uploaded : Bool
  deriving DecidableEq

/-- evaluate.cpp:293-404. -/
def afterBuild (serve absent : Bool) (b : Built) : Next :=
  match b.tree with
  | none => .fail
  | some t =>
    if !b.opened then .fail
    else if !absent then .set (.present t)
    else if !serve then .fail
    else
      match b.known with
      | none => .fail
      | some true => .set (.present t)
      | some false => if b.uploaded then .set (.present t) else .fail

/-- The answers when the structure of a tree is determined: locally for the tree itself (an error, or the structure if the
tree is found), by serve, locally for the structure serve gave, whether that was downloaded, locally again, whether serve
knows the structure, whether it was uploaded, and whether it could be opened as root. -/
structure Resolved where
  localTree : Option (Option Str)
  onServe : Option Str
  localStructure : Option (Option Str)
  downloaded : Bool
  localAgain : Option (Option Str)
  known : Option Bool
  uploaded : Bool
  opened : Bool
  deriving DecidableEq

/-- evaluate.cpp:497-509: the structure is computed locally, if either root is to be present. -/
def localFirst (absent : Bool) (ref : Root) (a : Resolved) : Option (Option Str) :=
  if !absent || !ref.isAbsent then a.localTree else some none

/-- evaluate.cpp:511-525: if that found nothing, serve is asked for an absent root. -/
def serveThen (serve : Bool) (ref : Root) (a : Resolved) (found : Option Str) : Option (Option Str) :=
  if found.isNone && ref.isAbsent then
    if !serve then none else a.onServe.map some
  else some none

/-- evaluate.cpp:527-574: a structure given by serve is fetched, if it is needed locally. -/
def fetch (absent : Bool) (ref : Root) (a : Resolved) (found remote : Option Str) : Option (Option Str) :=
  if (!absent || !ref.isAbsent) && found.isNone && remote.isSome then
    match a.localStructure with
    | none => none
    | some (some s) => some (some s)
    | some none => if !a.downloaded then none else a.localAgain
  else some found

/-- evaluate.cpp:576-624: the root. -/
def finishStructure (serve absent : Bool) (a : Resolved) (found remote : Option Str) : Next :=
  match absent, remote, found with
  | true, some s, _ => .set (.absent s)
  | true, none, some s =>
    if !serve then .fail
    else
      match a.known with
      | none => .fail
      | some true => .set (.absent s)
      | some false => if a.uploaded then .set (.absent s) else .fail
  | false, _, some s => if a.opened then .set (.present s) else .fail
  | _, _, _ => .fail

/-- evaluate.cpp:430-624 (`ResolveTreeStructureRoot`): the root refered to has to be known, with a tree. -/
def resolve (serve absent : Bool) (workspace : Option Root) (a : Resolved) : Next :=
  match workspace with
  | none => .fail
  | some ref =>
    match ref.treeHash with
    | none => .fail
    | some _ =>
      match localFirst absent ref a with
      | none => .fail
      | some found =>
        match serveThen serve ref a found with
        | none => .fail
        | some remote =>
          match fetch absent ref a found remote with
          | none => .fail
          | some found' => finishStructure serve absent a found' remote

/-- Where the evaluation of a key is: not asked for, asked for, waiting for other keys, asking the serve endpoint, about to
build, about to set the root, setting it, done, failed, or crashed. -/
inductive Phase
  | none
  | requested
  | waiting (deps : List Pre)
  | inquiring
  | building
  | ready (r : Root)
  | setting (r : Root)
  | done (r : Root)
  | failed
  | crashed
  deriving DecidableEq

/-- The phase that follows. -/
def Next.phase : Next → Phase
  | .fail => .failed
  | .crash => .crashed
  | .set r => .ready r
  | .inquire => .inquiring
  | .build => .building

/-- The configuration, the phase of each key, the trees the serve endpoint is known to have, and the keys reported to be
taken from the cache. -/
structure State where
  config : Config
  phase : Pre → Phase
  served : List Str
  cached : List Pre

/-- The phases with that of one key replaced. -/
def State.go (s : State) (k : Pre) (p : Phase) : State := { s with phase := fun x => if x = k then p else s.phase x }

/-- async_map_consumer.hpp: keys are created when they are asked for first. -/
def State.request (s : State) (l : List Pre) : State :=
  { s with phase := fun x => if x ∈ l ∧ s.phase x = .none then .requested else s.phase x }

/-- evaluate.cpp:746, 803-832: at the beginning, the roots the main repository depends on are asked for. -/
def start (C : Config) (main : Str) : State := State.request ⟨C, fun _ => .none, [], []⟩ (rootDeps C main)

/-- evaluate.cpp:214, 297, 441, 684: the configuration is read while nobody holds the exclusive lock. -/
def State.Readable (s : State) : Prop := ∀ k r, s.phase k ≠ .setting r

/-- What is known of the world: whether there is a serve endpoint, whether hashing is native, and the right answers: the
tree of the artifacts of a target in a configuration, and the structure of a tree. -/
structure World where
  serve : Bool
  native : Bool
  tree : Pre → Config → Str → Prop
  structure_ : Str → Str

/-- The trees serve is known to have after the root of an absent key was found or built. -/
def confirm (absent : Bool) (r : Next) (l : List Str) : List Str :=
  match absent, r with
  | true, .set (.present t) => t :: l
  | true, .set (.absent t) => t :: l
  | _, _ => l

/-- evaluate.cpp:238-242: the report that a root is taken from the cache. -/
def report (k : Pre) (l : Lookup) (cached : List Pre) : List Pre :=
  match l with
  | .hit _ (some true) _ => k :: cached
  | _ => cached

/-- The answers for the structure of `t` are right. -/
def Resolved.Right (W : World) (a : Resolved) (t : Str) : Prop :=
  (∀ s, a.localTree = some (some s) → s = W.structure_ t) ∧ (∀ s, a.onServe = some s → s = W.structure_ t) ∧
  (∀ s, a.localStructure = some (some s) → s = W.structure_ (W.structure_ t)) ∧
  (∀ s, a.localAgain = some (some s) → s = W.structure_ (W.structure_ t))

/-- The steps of the evaluation. Everything done while holding the lock shared is one step, as the configuration does not
change meanwhile; asking the serve endpoint and setting a root have a beginning and an end. -/
inductive Step (W : World) : State → State → Prop
  /-- evaluate.cpp:665-689: the roots the referenced repository depends on are asked for. -/
  | create {s : State} {k : Pre} : s.phase k = .requested → s.Readable →
      Step W s ((s.go k (.waiting (rootDeps s.config k.repository))).request (rootDeps s.config k.repository))
  /-- evaluate.cpp:704-719, 154-271: once these are there, a computed root is looked up. -/
  | lookup {s : State} {r m n c : Str} {a : Bool} {deps : List Pre} (l : Lookup) :
      s.phase (.computed r m n c a) = .waiting deps → (∀ d ∈ deps, ∃ v, s.phase d = .done v) → s.Readable →
      (∀ t g o, l = .hit t g o → W.tree (.computed r m n c a) s.config t) →
      Step W s { s.go (.computed r m n c a)
        (afterLookup (ask W.serve W.native a ((assoc r s.config).map Info.target)) l).phase with
        cached := report (.computed r m n c a) l s.cached }
  /-- evaluate.cpp:272-289: the serve endpoint answered. -/
  | inquired {s : State} {k : Pre} (o : Option Str) : s.phase k = .inquiring →
      (∀ t, o = some t → W.tree k s.config t) →
      Step W s { s.go k (afterInquire o).phase with served := confirm true (afterInquire o) s.served }
  /-- evaluate.cpp:293-398: the root is built. -/
  | build {s : State} {k : Pre} (b : Built) : s.phase k = .building → s.Readable →
      (∀ t, b.tree = some t → W.tree k s.config t) →
      Step W s { s.go k (afterBuild W.serve k.absent b).phase with
        served := confirm k.absent (afterBuild W.serve k.absent b) s.served }
  /-- evaluate.cpp:720-729, 626-641: the structure of a tree is determined. -/
  | resolve {s : State} {r : Str} {a : Bool} {deps : List Pre} (x : Resolved) :
      s.phase (.tree r a) = .waiting deps → (∀ d ∈ deps, ∃ v, s.phase d = .done v) → s.Readable →
      (∀ i t, assoc r s.config = some i → i.workspace.treeHash = some t → x.Right W t) →
      Step W s { s.go (.tree r a) (resolve W.serve a ((assoc r s.config).map Info.workspace) x).phase with
        served := confirm a (resolve W.serve a ((assoc r s.config).map Info.workspace) x) s.served }
  /-- evaluate.cpp:252, 279, 400, 646: the exclusive lock is taken. -/
  | lock {s : State} {k : Pre} {v : Root} : s.phase k = .ready v → s.Readable → Step W s (s.go k (.setting v))
  /-- evaluate.cpp:253-256, 280-287, 401-404, 647-650: the root is set, the lock released, and the value set. These are one
  step: as soon as the root is set, it is not asked for any more. -/
  | set {s : State} {k : Pre} {v : Root} : s.phase k = .setting v →
      Step W s { s.go k (.done v) with config := setRoot k v s.config }

/-- The configuration is changed while it is read: inquire_serve.cpp:89-90 reads all repositories without holding the
lock. -/
def State.Racy (s : State) : Prop := ∃ k k' v, s.phase k = .inquiring ∧ s.phase k' = .setting v

/-- The states that can occur, as long as nothing is undefined. -/
inductive Run (W : World) (C : Config) (main : Str) : State → Prop
  | start : Run W C main (start C main)
  | step {s t : State} : Run W C main s → ¬ s.Racy → Step W s t → Run W C main t

/-- evaluate.cpp:837-860: success, as reported: all roots the main repository depends on have a value, and nothing
failed. -/
def State.Success (C : Config) (main : Str) (s : State) : Prop :=
  (∀ k ∈ rootDeps C main, ∃ v, s.phase k = .done v) ∧ ∀ k, s.phase k ≠ .failed

end Verif.Evaluate
