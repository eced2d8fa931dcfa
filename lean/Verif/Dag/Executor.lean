import Verif.Dag.Marks
import Verif.Remote.Upload
import Verif.Digest.Model

/-!
# Model of the executor

Source: `src/buildtool/execution_engine/executor/executor.hpp` (`ExecutorImpl`, `Executor::Process`): what is done when
the traverser hands a node to the runner. The storage of the endpoint is the list of the objects it has, as in
`Verif.Remote.Upload`; the object infos in the nodes of the graph are a function of the artifacts.

Simplifications: native protocol; processing a node is one step, at the moment when it ends (the inputs of an action
do not change while it is processed, and other changes of the storage are steps of their own); progress, statistics
and messages are left out.
-/

namespace Verif.Dag.Executor

open Verif.Dig (ObjectType)
open Verif.Remote.Upload

variable {Art Act δ : Type} [DecidableEq Art] [DecidableEq Act] [DecidableEq δ]

/-- artifact.hpp:43-46 (`Artifact::ObjectInfo`). -/
structure Info (δ : Type) where
  digest : δ
  type : ObjectType
  failed : Bool
  deriving DecidableEq

/-- action.hpp (`IsTreeAction`, `IsTreeOverlayAction`, `IsOverlayDisjoint`): the kinds of actions. -/
inductive Work where
  | command
  | tree
  | overlay (disjoint : Bool)
  deriving DecidableEq

/-- artifact.hpp:173-197, action.hpp, dag.hpp:255-300: what the nodes of the graph say. `given` is the object of a known
artifact, `isFile` tells that an artifact is a file of a workspace; inputs with their paths (in the order of the paths),
output files and directories with their paths (relative to the working directory of the action). -/
structure Plan (Art Act δ : Type) where
  given : Art → Option (δ × ObjectType)
  isFile : Art → Bool
  work : Act → Work
  mayFail : Act → Bool
  inputs : Act → List (Str × Art)
  files : Act → List (Str × Art)
  dirs : Act → List (Str × Art)

/-- Objects at paths. -/
abbrev Named (δ : Type) := List (Str × δ × ObjectType)

/-- execution_response.hpp (`ExitCode`, `Artifacts`): the response of an endpoint; `none` if the artifacts can not be
obtained. -/
structure Reply (δ : Type) where
  exit : Int
  outs : Option (Named δ)

/-- What is around: the endpoint and the limit for batches; the object of a file of the workspace, if it can be read; the
local storage; the git repositories in which the object of an artifact is looked up; the directory with given inputs,
and the objects it consists of; the overlay of trees, and the trees that are written on the way. -/
structure World (Art δ : Type) where
  R : Peer δ
  lim : Nat
  blob : Art → Option (δ × ObjectType)
  localHas : δ → Bool
  localSrc : Source δ
  gitSrc : Art → Source δ
  root : Named δ → Option δ
  rootSrc : Named δ → Source δ
  overlay : Bool → Named δ → Option δ × List δ

/-- How an action is executed: the endpoint that does it, and if that is another one, how its objects are
retrieved. -/
structure Service (δ : Type) where
  exec : δ → List δ → Option (Reply δ) × List δ
  back : Option (List δ → List δ → Bool × List δ)

/-- The object infos in the nodes, and the storage. -/
structure Ex (Art δ : Type) where
  vals : Art → Option (Info δ)
  store : List δ

/-- Outcomes: access to a value that is not there, more recursive calls needed, or the answer and the new state. -/
inductive Outcome (Art δ : Type) where
  | ub
  | more
  | fine (ok : Bool) (x : Ex Art δ)

/-- artifact.hpp:154-171 (`SetObjectInfo`). -/
def put (f : Art → Option (Info δ)) (a : Art) (i : Info δ) : Art → Option (Info δ) := fun b => if b = a then some i else f b

/-! ## Artifacts -/

/-- executor.hpp:473-517 (`VerifyOrUploadGitArtifact`), 558-577 (`VerifyOrUploadKnownArtifact`). -/
def uploadGit (S : Source δ) (R : Peer δ) (lim n : Nat) (d : δ) (s : List δ) : Option (Bool × List δ) :=
  if S.readable d then
    if S.tree d then
      match verifyOrUpload S R lim n (S.sub d) s with
      | none => none
      | some (false, s') => some (false, s')
      | some (true, s') => some (R.up s' [d])
    else some (R.up s [d])
  else some (false, s)

/-- executor.hpp:328-352: an object that is known. -/
def uploadKnown (W : World Art δ) (n : Nat) (a : Art) (d : δ) (s : List δ) : Option (Bool × List δ) :=
  if W.R.missing s [d] = [] then some (true, s)
  else
    match (if W.localHas d then upload W.localSrc W.R W.lim n [d] s else some (false, s)) with
    | none => none
    | some (true, s') => some (true, s')
    | some (false, s') => uploadGit (W.gitSrc a) W.R W.lim n d s'

/-- executor.hpp:305-381 (`VerifyOrUploadArtifact`), with 584-613 (`UploadFile`). -/
def processArt (W : World Art δ) (P : Plan Art Act δ) (n : Nat) (a : Art) (x : Ex Art δ) : Outcome Art δ :=
  match x.vals a with
  | some i =>
    match uploadKnown W n a i.digest x.store with
    | none => .more
    | some (ok, s) => .fine ok ⟨x.vals, s⟩
  | none =>
    if P.isFile a then
      match W.blob a with
      | none => .fine false x
      | some (d, t) =>
        if (W.R.up x.store [d]).1 then .fine true ⟨put x.vals a ⟨d, t, false⟩, (W.R.up x.store [d]).2⟩
        else .fine false ⟨x.vals, (W.R.up x.store [d]).2⟩
    else .fine false x

/-! ## Actions -/

/-- `node->Content().Info()` for all inputs; `none` if one of them is dereferenced without having a value. -/
def inputsOf (vals : Art → Option (Info δ)) : List (Str × Art) → Option (List (Str × Info δ))
  | [] => some []
  | (p, a) :: t =>
    match vals a, inputsOf vals t with
    | some i, some l => some ((p, i) :: l)
    | _, _ => none

/-- The objects of the inputs. -/
def strip (ins : List (Str × Info δ)) : Named δ := ins.map fun i => (i.1, i.2.digest, i.2.type)

/-- executor.hpp:132-135, 186-189, 708-710: if some input is marked as failed. -/
def anyFailed (ins : List (Str × Info δ)) : Bool := ins.any fun i => i.2.failed

/-- executor.hpp:642-650: the only input is a tree at the root. -/
def single : List (Str × Info δ) → Option δ
  | [(p, i)] => if (p = ['.'] ∨ p = []) ∧ i.type.isTree = true then some i.digest else none
  | _ => none

/-- executor.hpp:638-652 (`CreateRootDigest`), common_api.cpp:179-205 (`CommonUploadTreeNative`). -/
def createRoot (W : World Art δ) (n : Nat) (ins : List (Str × Info δ)) (s : List δ) : Option (Option δ × List δ) :=
  match single ins with
  | some d => some (some d, s)
  | none =>
    match W.root (strip ins) with
    | none => some (none, s)
    | some r =>
      match uploadTree (W.rootSrc (strip ins)) W.R W.lim n (decide (W.R.missing s [r] = [])) r s with
      | none => none
      | some (false, s') => some (none, s')
      | some (true, s') => some (some r, s')

/-- tree_operations_utils.cpp:244-267 (`WriteTree`) for the trees of an overlay, one after the other. -/
def writeAll (R : Peer δ) : List δ → List δ → Bool × List δ
  | [], s => (true, s)
  | t :: l, s => if (R.up s [t]).1 then writeAll R l (R.up s [t]).2 else (false, (R.up s [t]).2)

/-- executor.hpp:130-138, 183-193: `OutputDirs()[0]` is accessed without a check. -/
def setTree (P : Plan Art Act δ) (c : Act) (ins : List (Str × Info δ)) (d : δ) (vals : Art → Option (Info δ)) (s : List δ) :
    Outcome Art δ :=
  match P.dirs c with
  | [] => .ub
  | o :: _ => .fine true ⟨put vals o.2 ⟨d, .tree, anyFailed ins⟩, s⟩

/-- executor.hpp:229-287: executing, and retrieving the artifacts from another endpoint; that this failed is only
reported. -/
def run (V : Service δ) (r : δ) (s : List δ) : Option (Reply δ) × List δ :=
  match V.exec r s with
  | (none, s') => (none, s')
  | (some q, s') =>
    match V.back with
    | none => (some q, s')
    | some b =>
      match q.outs with
      | none => (none, s')
      | some l => (some q, (b (l.map fun o => o.2.1) s').2)

/-- executor.hpp:655-677 (`CheckOutputsExist`). -/
def exist (outs : Named δ) (good : ObjectType → Bool) (l : List (Str × Art)) : Bool :=
  l.all fun o => match outs.lookup o.1 with
    | some (_, t) => good t
    | none => false

/-- object_type.hpp:56-74 (`IsFileObject`, `IsSymlinkObject`): what an output file may be. -/
def goodFile : ObjectType → Bool
  | .tree => false
  | _ => true

/-- object_type.hpp:65-74 (`IsTreeObject`, `IsSymlinkObject`): what an output directory may be. -/
def goodDir : ObjectType → Bool
  | .tree => true
  | .symlink => true
  | _ => false

/-- executor.hpp:618-632 (`SaveObjectInfo`) for one list of outputs; `none`: `at` throws in a function declared
noexcept. -/
def save (outs : Named δ) (failed : Bool) : List (Str × Art) → (Art → Option (Info δ)) → Option (Art → Option (Info δ))
  | [], v => some v
  | (p, a) :: t, v =>
    match outs.lookup p with
    | none => none
    | some (d, ty) => save outs failed t (put v a ⟨d, ty, failed⟩)

/-- executor.hpp:681-785 (`ParseResponse`), for a response. -/
def parse (P : Plan Art Act δ) (c : Act) (ins : List (Str × Info δ)) (q : Reply δ) (x : Ex Art δ) : Outcome Art δ :=
  if q.exit ≠ 0 ∧ P.mayFail c = false then .fine false x
  else
    match q.outs with
    | none => .fine false x
    | some outs =>
      if outs = [] ∨ exist outs goodFile (P.files c) = false ∨ exist outs goodDir (P.dirs c) = false then .fine false x
      else
        match save outs (anyFailed ins || decide (q.exit ≠ 0)) (P.files c ++ P.dirs c) x.vals with
        | none => .ub
        | some v => .fine true ⟨v, x.store⟩

/-- executor.hpp:84-140 (`ExecuteTreeOverlayAction`), 145-296 (`ExecuteAction`), and `Process` for actions. -/
def processAct (W : World Art δ) (P : Plan Art Act δ) (V : Service δ) (n : Nat) (c : Act) (x : Ex Art δ) : Outcome Art δ :=
  match inputsOf x.vals (P.inputs c) with
  | none => .ub
  | some ins =>
    match P.work c with
    | .overlay disjoint =>
      match writeAll W.R (W.overlay disjoint (strip ins)).2 x.store, (W.overlay disjoint (strip ins)).1 with
      | (true, s), some d => setTree P c ins d x.vals s
      | (_, s), _ => .fine false ⟨x.vals, s⟩
    | .tree =>
      match createRoot W n ins x.store with
      | none => .more
      | some (none, s) => .fine false ⟨x.vals, s⟩
      | some (some r, s) => setTree P c ins r x.vals s
    | .command =>
      match createRoot W n ins x.store with
      | none => .more
      | some (none, s) => .fine false ⟨x.vals, s⟩
      | some (some r, s) =>
        match run V r s with
        | (none, s') => .fine false ⟨x.vals, s'⟩
        | (some q, s') => parse P c ins q ⟨x.vals, s'⟩

/-! ## Builds -/

/-- artifact.hpp:180-191: the object infos at the start. -/
def givenInfo (P : Plan Art Act δ) (a : Art) : Option (Info δ) := (P.given a).map fun i => ⟨i.1, i.2, false⟩

/-- What happens while the traverser runs: the storage `s₀` at the start; then what the traverser logged (latest first),
where `S` are the services available for each action; other clients store objects, those something refers to
first. -/
inductive Ran (kids : δ → List δ) (W : World Art δ) (P : Plan Art Act δ) (S : Act → Service δ → Prop) (s₀ : List δ) :
    List (Event Art Act) → Ex Art δ → Prop where
  | start : Ran kids W P S s₀ [] ⟨givenInfo P, s₀⟩
  | others {l : List (Event Art Act)} {x : Ex Art δ} {s : List δ} : Ran kids W P S s₀ l x → Grows kids x.store s →
      Ran kids W P S s₀ l ⟨x.vals, s⟩
  | started {l : List (Event Art Act)} {x : Ex Art δ} (n : Node Art Act) : Ran kids W P S s₀ l x →
      Ran kids W P S s₀ (.started n :: l) x
  | available {l : List (Event Art Act)} {x : Ex Art δ} (a : Art) : Ran kids W P S s₀ l x →
      Ran kids W P S s₀ (.available a :: l) x
  | art {l : List (Event Art Act)} {x x' : Ex Art δ} {a : Art} {ok : Bool} (n : Nat) : Ran kids W P S s₀ l x →
      processArt W P n a x = .fine ok x' → Ran kids W P S s₀ (.finished (.art a) ok :: l) x'
  | act {l : List (Event Art Act)} {x x' : Ex Art δ} {c : Act} {ok : Bool} (n : Nat) (V : Service δ) :
      Ran kids W P S s₀ l x → S c V → processAct W P V n c x = .fine ok x' →
      Ran kids W P S s₀ (.finished (.act c) ok :: l) x'

/-! ## What is assumed -/

/-- dag.cpp:21-214: the graph has the nodes that were described; tree actions have one output, a directory. -/
structure Fits (g : Graph Art Act) (P : Plan Art Act δ) : Prop where
  deps : ∀ c, (P.inputs c).map Prod.snd = g.deps c
  outs : ∀ c, (P.files c ++ P.dirs c).map Prod.snd = g.outs c
  tree : ∀ c, P.work c ≠ .command → P.files c = [] ∧ ∃ o, P.dirs c = [o]

/-- All that an object refers to is known to the source. -/
def Whole (S : Source δ) (kids : δ → List δ) : Prop := ∀ d, ∀ k ∈ kids d, S.tree d = true ∧ k ∈ S.sub d

/-- What is assumed of the surroundings: the peer as in C36; the content of a file refers to nothing; local storage
and git repositories know what their trees consist of; a new directory consists of the inputs and new
directories; the trees written for an overlay refer to what is there or was written before (see C31). -/
structure World.OK (W : World Art δ) (kids : δ → List δ) : Prop where
  peer : W.R.OK
  blob : ∀ a d t, W.blob a = some (d, t) → kids d = []
  localSrc : Whole W.localSrc kids
  gitSrc : ∀ a, Whole (W.gitSrc a) kids
  root : ∀ ins r s, W.root ins = some r → (∀ i ∈ ins, i.2.1 ∈ s) →
    (W.rootSrc ins).tree r = true ∧ Covered (W.rootSrc ins) kids [r] s
  overlay : ∀ dis ins s, Closed kids s → (∀ i ∈ ins, i.2.1 ∈ s) →
    (∀ a d b, (W.overlay dis ins).2 = a ++ d :: b → ∀ k ∈ kids d, k ∈ s ++ a) ∧
    ∀ d, (W.overlay dis ins).1 = some d → d ∈ s ++ (W.overlay dis ins).2

/-- What is assumed of execution, for requests whose root is completely there: the storage stays closed, the answer is
one of the possible results of running the action, and the objects of the answer are there. Retrieving from another
endpoint keeps the storage closed, and all objects are there if it reports success. -/
structure Honest (kids : δ → List δ) (runs : δ → Reply δ → Prop) (V : Service δ) : Prop where
  grows : ∀ r s, Closed kids s → r ∈ s → Grows kids s (V.exec r s).2
  runs : ∀ r s q, Closed kids s → r ∈ s → (V.exec r s).1 = some q → runs r q
  there : ∀ r s q l, Closed kids s → r ∈ s → (V.exec r s).1 = some q → V.back = none → q.outs = some l →
    ∀ o ∈ l, o.2.1 ∈ (V.exec r s).2
  back : ∀ b, V.back = some b → ∀ l s, Closed kids s → Grows kids s (b l s).2 ∧ ((b l s).1 = true → ∀ d ∈ l, d ∈ (b l s).2)

/-- Retrieving from another endpoint never fails. -/
def Reliable (V : Service δ) : Prop := ∀ b, V.back = some b → ∀ l s, (b l s).1 = true

/-! ## What is claimed -/

/-- The directory an action is run in. -/
def directory (W : World Art δ) (ins : List (Str × Info δ)) : Option δ :=
  match ins with
  | [(p, i)] => if (p = ['.'] ∨ p = []) ∧ i.type = .tree then some i.digest else W.root (strip ins)
  | _ => W.root (strip ins)

/-- The object infos of the outputs of an action are explained by those of the inputs: there is one result of running
the action on the inputs, which is accepted, and the outputs are what it says; they are marked as failed if an
input is or the exit code is not zero. -/
def Explained (W : World Art δ) (P : Plan Art Act δ) (runs : Act → δ → Reply δ → Prop) (vals : Art → Option (Info δ))
    (c : Act) : Prop :=
  ∃ ins : List (Str × Info δ), ins.map Prod.fst = (P.inputs c).map Prod.fst ∧
    ins.map (fun i => some i.2) = (P.inputs c).map (fun i => vals i.2) ∧
    match P.work c with
    | .tree => ∃ d, directory W ins = some d ∧
        ∀ o ∈ P.files c ++ P.dirs c, vals o.2 = some ⟨d, .tree, decide (∃ i ∈ ins, i.2.failed = true)⟩
    | .overlay dis => ∃ d, (W.overlay dis (strip ins)).1 = some d ∧
        ∀ o ∈ P.files c ++ P.dirs c, vals o.2 = some ⟨d, .tree, decide (∃ i ∈ ins, i.2.failed = true)⟩
    | .command => ∃ r q outs, directory W ins = some r ∧ runs c r q ∧ (q.exit = 0 ∨ P.mayFail c = true) ∧
        q.outs = some outs ∧
        (∀ o ∈ P.files c, ∃ d t, outs.lookup o.1 = some (d, t) ∧ t ≠ .tree ∧
          vals o.2 = some ⟨d, t, decide ((∃ i ∈ ins, i.2.failed = true) ∨ q.exit ≠ 0)⟩) ∧
        ∀ o ∈ P.dirs c, ∃ d t, outs.lookup o.1 = some (d, t) ∧ (t = .tree ∨ t = .symlink) ∧
          vals o.2 = some ⟨d, t, decide ((∃ i ∈ ins, i.2.failed = true) ∨ q.exit ≠ 0)⟩

/-- The object of an artifact no action builds: the given one, or the content of the file. -/
def leaf (W : World Art δ) (P : Plan Art Act δ) (a : Art) : Option (Info δ) :=
  match P.given a with
  | some (d, t) => some ⟨d, t, false⟩
  | none => if P.isFile a then (W.blob a).map fun i => ⟨i.1, i.2, false⟩ else none

end Verif.Dag.Executor
