import Verif.Storage.Model

/-!
# Model of garbage collection

Compactification of the youngest generation consists of many small tasks executed by a pool of
threads; each is a program in the sense of `Prog`.  The rotation of generations is a sequence of
renames of whole directories.
-/

namespace Verif.Storage

open Prog

variable (E : Env)

/-! ## Compactification -/

/-- compactifier.cpp:145-208 (`RemoveInvalid`) for one file of the CAS.  The code removes a
directory with an invalid name as a whole, here the files in it are removed one by one. -/
def removeInvalid (c : Cas) (d : Id) : Prog Bool :=
  if E.validName d then pure true
  else do
    let v ← readL ⟨0, .cas c d⟩
    if v.isSome then removeL ⟨0, .cas c d⟩ else pure true

/-- compactifier.cpp:241-247: remove one object that can be spliced. -/
def removeIfFile (c : Cas) (d : Id) : Prog Bool := do
  let v ← readL ⟨0, .cas c d⟩
  if v.isSome then removeL ⟨0, .cas c d⟩ else pure true

/-- compactifier.cpp:91-101: the storages inspected for a type of large objects. -/
def splicedStores : Bool → List Cas
  | true => [.tree]
  | false => [.file, .exec]

/-- compactifier.cpp:210-259 (`RemoveSpliced`) for one name in the directory of large objects. -/
def removeSpliced (t : Bool) (d : Id) : Prog Bool := do
  let v ← readL ⟨0, .large t d⟩
  if v.isSome then forAll (fun c => removeIfFile c d) (splicedStores t) else pure true

/-- large_object_cas.tpp:160-170 in a local generation: store all chunks. -/
def storeChunksL : List Bytes → Prog (Option (List Id))
  | [] => pure (some [])
  | c :: cs => do
    let r ← storeObj E 0 .file c
    match r with
    | none => pure none
    | some d => do
      let rs ← storeChunksL cs
      match rs with
      | none => pure none
      | some ds => pure (some (d :: ds))

/-- large_object_cas.tpp:97-124 (`WriteEntry`) in a local generation. -/
def writeEntryL (t : Bool) (d : Id) (ps : List Id) : Prog Bool := do
  let v ← readL ⟨0, .large t d⟩
  if v.isSome then pure true
  else if ps.length < 2 then pure false
  else replaceL ⟨0, .large t d⟩ (E.dumpParts ps)

/-- large_object_cas.tpp:133-153 in a local generation: find the file, then open it.  Between the
two another task may remove it. -/
def splitSourceL (t : Bool) (d : Id) : Prog (Option Bytes) :=
  if t then do
    let v ← readL ⟨0, .cas .tree d⟩
    if v.isSome then readL ⟨0, .cas .tree d⟩ else pure none
  else do
    let v ← readL ⟨0, .cas .file d⟩
    if v.isSome then readL ⟨0, .cas .file d⟩
    else do
      let w ← readL ⟨0, .cas .exec d⟩
      if w.isSome then readL ⟨0, .cas .exec d⟩ else pure none

/-- large_object_cas.tpp:126-182 (`Split`) in a local generation. -/
def splitL (t : Bool) (d : Id) : Prog (Option (List Id)) := do
  let e ← readEntry E 0 t d
  match e with
  | some ps => pure (some ps)
  | none => do
    let src ← splitSourceL t d
    match src with
    | none => pure none
    | some b => do
      let ps? ← storeChunksL E (E.chunks b)
      match ps? with
      | none => pure none
      | some ps => do
        let _ ← writeEntryL E t d ps
        pure (some ps)

/-- Whether a CAS is for trees. -/
def Cas.isTree : Cas → Bool
  | .tree => true
  | _ => false

/-- compactifier.cpp:261-308 (`SplitLarge`). -/
def splitLarge (c : Cas) (d : Id) : Prog Bool := do
  let v ← readL ⟨0, .cas c d⟩
  match v with
  | none => pure true
  | some b => do
    let r ← splitL E c.isTree (E.hash c b)
    match r with
    | none => pure false
    | some ps => if ps.length < 2 then pure true else removeL ⟨0, .cas c d⟩

/-- The tasks of compactification: garbage_collector.cpp:265-268, compactification_task.cpp:43-89.
The code scans the directories first and queues a task for each (directory of a) file found, for
`SplitLarge` only if the file has at least the given size; here there may be tasks for any names. -/
inductive Task where
  | removeInvalid (c : Cas) (d : Id)
  | removeSpliced (t : Bool) (d : Id)
  | splitLarge (c : Cas) (d : Id)

/-- The code of a task. -/
def Task.run : Task → Prog Bool
  | .removeInvalid c d => Storage.removeInvalid E c d
  | .removeSpliced t d => Storage.removeSpliced t d
  | .splitLarge c d => Storage.splitLarge E c d

/-! ## Rotation of the generations -/

/-- Content of the directory of one generation. -/
abbrev Gen := Path → Option Bytes

/-- The cache root: the directories of the generations that exist, and the `remove-me` directories
(only their contents matter). -/
structure Disk where
  gens : Nat → Option Gen
  trash : List Gen

/-- What lookups can see. -/
def Disk.world (D : Disk) : World := fun g p => (D.gens g).bind (fun x => x p)

/-- The directory structure with given content of the generations.  `dirs` are the generations whose
directory exists. -/
def Disk.set (D : Disk) (g : Nat) (x : Option Gen) : Disk :=
  { D with gens := fun i => if i = g then x else D.gens i }

/-- Steps made under the exclusive lock after compactification. -/
inductive GcStep where
  /-- garbage_collector.cpp:190-204 and 213-227: rename the directory of a generation, if it exists,
  to a fresh `remove-me` directory. -/
  | trash (i : Nat)
  /-- garbage_collector.cpp:213-227: rename the directory of generation `i`, if it exists, to that of
  generation `j`. -/
  | move (i j : Nat)
  deriving DecidableEq

/-- Effect of a step, `none` if the rename fails because the target exists. -/
def GcStep.exec (D : Disk) : GcStep → Option Disk
  | .trash i =>
    match D.gens i with
    | none => some D
    | some x => some { (D.set i none) with trash := x :: D.trash }
  | .move i j =>
    match D.gens i with
    | none => some D
    | some x =>
      match D.gens j with
      | some _ => none
      | none => some ((D.set i none).set j (some x))

/-- garbage_collector.cpp:207-228: the renames of a rotation for `n` generations; `i` counts down. -/
def rotationFrom (n : Nat) : (i : Nat) → List GcStep
  | 0 => []
  | i + 1 => (if i + 1 = n then .trash i else .move i (i + 1)) :: rotationFrom n i

/-- garbage_collector.cpp:207-228. -/
def rotation (n : Nat) : List GcStep := rotationFrom n n

/-- garbage_collector.cpp:182-204: the renames if everything is to be removed. -/
def removeAll : (n : Nat) → List GcStep
  | 0 => []
  | i + 1 => .trash i :: removeAll i

/-- Execute steps; stop at the first that fails. -/
def execSteps : List GcStep → Disk → Option Disk
  | [], D => some D
  | s :: ss, D =>
    match s.exec D with
    | none => none
    | some D' => execSteps ss D'

/-- garbage_collector.cpp:233-242: remove the `remove-me` directories. -/
def Disk.clean (D : Disk) : Disk := { D with trash := [] }

end Verif.Storage
