import Verif.Remote.ActionKeyProps
import Mathlib.Data.List.Nodup

/-!
# Directory messages of the remote execution API

Source: `src/buildtool/execution_api/bazel_msg/bazel_msg_factory.cpp`; numbers of the fields as in
`build/bazel/remote/execution/v2/remote_execution.proto`.
-/

namespace Verif.RE

open Verif.Dig Verif.Wire

/-- `FileNode`. -/
structure FileNode where
  name : Str
  digest : Dig.Wire
  exec : Bool
  deriving DecidableEq

/-- `DirectoryNode`. -/
structure DirNode where
  name : Str
  digest : Dig.Wire
  deriving DecidableEq

/-- `SymlinkNode`. -/
structure LinkNode where
  name : Str
  target : Str
  deriving DecidableEq

/-- `Directory`. -/
structure Directory where
  files : List FileNode
  dirs : List DirNode
  links : List LinkNode
  deriving DecidableEq

/-- bazel_msg_factory.cpp:91-100 (`CreateFileNode`). -/
def FileNode.text (f : FileNode) : Str :=
  encode (strField 1 f.name ++ ((2, .bytes (encode (digestFields f.digest))) :: boolField 4 f.exec))

/-- bazel_msg_factory.cpp:103-110 (`CreateDirectoryNode`). -/
def DirNode.text (d : DirNode) : Str := encode (strField 1 d.name ++ [(2, .bytes (encode (digestFields d.digest)))])

/-- bazel_msg_factory.cpp:113-120 (`CreateSymlinkNode`). -/
def LinkNode.text (l : LinkNode) : Str := encode (pairFields (l.name, l.target))

/-- `SerializeMessage` of a directory. -/
def Directory.text (d : Directory) : Str :=
  encode (repeated 1 (d.files.map FileNode.text) ++ (repeated 2 (d.dirs.map DirNode.text) ++
    repeated 3 (d.links.map LinkNode.text)))

/-- Reads a `FileNode`. -/
def FileNode.read (s : Str) : Option FileNode :=
  (decode s).bind fun l => (messageAt 2 l).bind fun d => some ⟨strAt 1 l, readDigest d, boolAt 4 l⟩

/-- Reads a `DirectoryNode`. -/
def DirNode.read (s : Str) : Option DirNode :=
  (decode s).bind fun l => (messageAt 2 l).bind fun d => some ⟨strAt 1 l, readDigest d⟩

/-- Reads a `SymlinkNode`. -/
def LinkNode.read (s : Str) : Option LinkNode := (readPair s).bind fun p => some ⟨p.1, p.2⟩

/-- Reads all messages of a repeated field. -/
def readAll {α : Type} (f : Str → Option α) : List Str → Option (List α)
  | [] => some []
  | s :: t => (f s).bind fun a => (readAll f t).bind fun l => some (a :: l)

/-- bazel_msg_factory.hpp (`MessageFromString<bazel_re::Directory>`). -/
def Directory.read (s : Str) : Option Directory :=
  (decode s).bind fun l => (readAll FileNode.read (bytesAt 1 l)).bind fun files =>
    (readAll DirNode.read (bytesAt 2 l)).bind fun dirs => (readAll LinkNode.read (bytesAt 3 l)).bind fun links =>
      some ⟨files, dirs, links⟩

/-- `std::sort` by name. -/
def insertBy {α : Type} (key : α → Str) (a : α) : List α → List α
  | [] => [a]
  | b :: t => if key b < key a then b :: insertBy key a t else a :: b :: t

def sortBy {α : Type} (key : α → Str) : List α → List α
  | [] => []
  | a :: t => insertBy key a (sortBy key t)

/-- bazel_msg_factory.cpp:67-88 (`CreateDirectory`). -/
def createDirectory (files : List FileNode) (dirs : List DirNode) (links : List LinkNode) : Directory :=
  ⟨sortBy FileNode.name files, sortBy DirNode.name dirs, sortBy LinkNode.name links⟩

/-! ## Round trip -/

theorem fileNode_read (f : FileNode) (h : Int64 f.digest.size) : FileNode.read f.text = some f := by
  unfold FileNode.read FileNode.text
  rw [decode_encode, Option.bind_some]
  have hm : messageAt 2 (strField 1 f.name ++ ((2, .bytes (encode (digestFields f.digest))) :: boolField 4 f.exec)) =
      some (digestFields f.digest) := by
    unfold messageAt strAt
    rw [bytesAt_append, bytesAt_str, bytesAt_cons, bytesAt_bool]
    simp only [show ¬ (1 = 2) by decide, false_and, if_false, List.nil_append, if_true]
    exact decode_encode _
  have hn : strAt 1 (strField 1 f.name ++ ((2, .bytes (encode (digestFields f.digest))) :: boolField 4 f.exec)) =
      f.name := by
    unfold strAt
    rw [bytesAt_append, bytesAt_str, bytesAt_cons, bytesAt_bool]
    simp only [show ¬ (2 = 1) by decide, true_and, if_false, List.append_nil]
    exact last_str _
  have hb : boolAt 4 (strField 1 f.name ++ ((2, .bytes (encode (digestFields f.digest))) :: boolField 4 f.exec)) =
      f.exec := by
    unfold boolAt
    rw [numsAt_append, numsAt_str, numsAt_bytes, numsAt_bool]
    cases f.exec <;> rfl
  rw [hm, Option.bind_some, hn, hb, digest_read _ h]

theorem dirNode_read (d : DirNode) (h : Int64 d.digest.size) : DirNode.read d.text = some d := by
  unfold DirNode.read DirNode.text
  rw [decode_encode, Option.bind_some]
  have hm : messageAt 2 (strField 1 d.name ++ [(2, Payload.bytes (encode (digestFields d.digest)))]) =
      some (digestFields d.digest) := by
    unfold messageAt strAt
    rw [bytesAt_append, bytesAt_str, bytesAt_cons, bytesAt_nil]
    simp only [show ¬ (1 = 2) by decide, false_and, if_false, List.nil_append, if_true]
    exact decode_encode _
  have hn : strAt 1 (strField 1 d.name ++ [(2, Payload.bytes (encode (digestFields d.digest)))]) = d.name := by
    unfold strAt
    rw [bytesAt_append, bytesAt_str, bytesAt_cons, bytesAt_nil]
    simp only [show ¬ (2 = 1) by decide, true_and, if_false, List.append_nil]
    exact last_str _
  rw [hm, Option.bind_some, hn, digest_read _ h]

theorem linkNode_read (l : LinkNode) : LinkNode.read l.text = some l := by
  unfold LinkNode.read LinkNode.text
  rw [read_pair]
  rfl

theorem readAll_map {α : Type} {f : Str → Option α} {g : α → Str} : ∀ {l : List α}, (∀ a ∈ l, f (g a) = some a) →
    readAll f (l.map g) = some l
  | [], _ => rfl
  | a :: l, h => by
    rw [List.map_cons, readAll, h a (List.mem_cons_self ..), Option.bind_some,
      readAll_map (fun b hb => h b (List.mem_cons_of_mem _ hb)), Option.bind_some]

/-- A directory whose digests have sizes of type `int64`. -/
structure Directory.Sized (d : Directory) : Prop where
  files : ∀ f ∈ d.files, Int64 f.digest.size
  dirs : ∀ f ∈ d.dirs, Int64 f.digest.size

theorem directory_read (d : Directory) (h : d.Sized) : Directory.read d.text = some d := by
  unfold Directory.read Directory.text
  rw [decode_encode, Option.bind_some]
  simp only [bytesAt_append, bytesAt_repeated]
  simp only [show ¬ (2 = 1) by decide, show ¬ (3 = 1) by decide, show ¬ (1 = 2) by decide, show ¬ (3 = 2) by decide,
    show ¬ (1 = 3) by decide, show ¬ (2 = 3) by decide, if_true, if_false, List.append_nil, List.nil_append]
  rw [readAll_map (fun f hf => fileNode_read f (h.files f hf)), Option.bind_some,
    readAll_map (fun f hf => dirNode_read f (h.dirs f hf)), Option.bind_some,
    readAll_map (fun l _ => linkNode_read l), Option.bind_some]

/-! ## Sorting -/

theorem insertBy_perm {α : Type} (key : α → Str) (a : α) : ∀ l, List.Perm (insertBy key a l) (a :: l)
  | [] => List.Perm.refl _
  | b :: t => by
    unfold insertBy
    split
    · exact ((insertBy_perm key a t).cons b).trans (List.Perm.swap a b t)
    · exact List.Perm.refl _

theorem sortBy_perm {α : Type} (key : α → Str) : ∀ l, List.Perm (sortBy key l) l
  | [] => List.Perm.refl _
  | a :: t => (insertBy_perm key a _).trans ((sortBy_perm key t).cons a)

theorem insertBy_sorted {α : Type} (key : α → Str) (a : α) : ∀ l, l.Pairwise (fun x y => key x ≤ key y) →
    (insertBy key a l).Pairwise (fun x y => key x ≤ key y)
  | [], _ => List.pairwise_singleton _ _
  | b :: t, h => by
    obtain ⟨h1, h2⟩ := List.pairwise_cons.1 h
    unfold insertBy
    split
    · rename_i hlt
      refine List.pairwise_cons.2 ⟨fun x hx => ?_, insertBy_sorted key a t h2⟩
      rcases List.mem_cons.1 ((insertBy_perm key a t).mem_iff.1 hx) with rfl | hx
      · exact le_of_lt hlt
      · exact h1 x hx
    · rename_i hge
      refine List.pairwise_cons.2 ⟨fun x hx => ?_, h⟩
      rcases List.mem_cons.1 hx with rfl | hx
      · exact not_lt.1 hge
      · exact le_trans (not_lt.1 hge) (h1 x hx)

theorem sortBy_sorted {α : Type} (key : α → Str) : ∀ l, (sortBy key l).Pairwise (fun x y => key x ≤ key y)
  | [] => List.Pairwise.nil
  | a :: t => insertBy_sorted key a _ (sortBy_sorted key t)

/-- With different names, the result does not depend on the order. -/
theorem sortBy_congr {α : Type} {key : α → Str} {l l' : List α} (hn : (l.map key).Nodup) (h : List.Perm l l') :
    sortBy key l = sortBy key l' := by
  have hp : List.Perm (sortBy key l) (sortBy key l') := ((sortBy_perm key l).trans h).trans (sortBy_perm key l').symm
  refine hp.eq_of_pairwise (le := fun x y => key x ≤ key y) (fun a b ha hb hab hba => ?_) (sortBy_sorted key l)
    (sortBy_sorted key l')
  have ha' : a ∈ l := (sortBy_perm key l).mem_iff.1 ha
  have hb' : b ∈ l := h.mem_iff.2 ((sortBy_perm key l').mem_iff.1 hb)
  exact List.inj_on_of_nodup_map hn ha' hb' (le_antisymm hab hba)

end Verif.RE
