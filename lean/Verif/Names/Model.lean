import Verif.Path.Model
import Verif.Util.Json

/-!
# Model of target names

Source: `src/buildtool/build_engine/base_maps/entity_name_data.hpp`,
`src/buildtool/build_engine/base_maps/entity_name.hpp`.
-/

namespace Verif.Names

open Verif.Path

/-- entity_name_data.hpp:57-63 (`ReferenceType`). -/
inductive Ref where
  | target
  | file
  | tree
  | glob
  | symlink
  deriving DecidableEq

/-- entity_name_data.hpp:57-63: the values of the enumerators. -/
def Ref.value : Ref → Nat
  | .target => 0
  | .file => 1
  | .tree => 2
  | .glob => 3
  | .symlink => 4

/-- entity_name_data.hpp:65-69 (`NamedTarget`). -/
structure Named where
  repo : Str
  module : Str
  name : Str
  ref : Ref
  deriving DecidableEq

/-- entity_name_data.hpp:80-86 (`normal_module_name`). -/
def normalModule (m : Str) : Str :=
  parentPath (lexRelative (lexNormal ('/' :: m ++ ['/'])) ['/'])

/-- entity_name_data.hpp:71-78: the constructor of `NamedTarget`. -/
def mk (repo module name : Str) (ref : Ref) : Named := ⟨repo, normalModule module, name, ref⟩

/-- entity_name_data.hpp:99-111 (`NamedTarget::operator<`). -/
def Named.lt (x y : Named) : Bool :=
  if x.repo ≠ y.repo then decide (x.repo < y.repo)
  else if x.module ≠ y.module then decide (x.module < y.module)
  else if x.name ≠ y.name then decide (x.name < y.name)
  else decide (x.ref.value < y.ref.value)

/-- entity_name_data.hpp:114-116 (`EntityName::variant_t`).  The expressions of an anonymous target are
represented by their identifiers. -/
inductive Entity where
  | named (n : Named)
  | anonymous (ruleMap targetNode : Str)
  deriving DecidableEq

variable {N : Type}

/-- entity_name_data.hpp:192-203: marker of a reference in `ToJson`. -/
def Ref.json : Ref → List (Json N)
  | .target => []
  | .file => [.str "FILE".toList]
  | .tree => [.str "TREE".toList]
  | .glob => [.str "GLOB".toList]
  | .symlink => [.str "SYMLINK".toList]

/-- entity_name_data.hpp:187-215 (`EntityName::ToJson`). -/
def Entity.toJson : Entity → Json N
  | .anonymous r n => .arr [.str "#".toList, .str r, .str n]
  | .named x =>
    .arr ([.str "@".toList, .str x.repo] ++ x.ref.json ++ [.str x.module, .str x.name])

/-- `is_string` and `get<std::string>`. -/
def string? : Json N → Option Str
  | .str s => some s
  | _ => none

/-- entity_name.hpp:93-106 (`ParseEntityName_2`). -/
def parse2 (a b : Json N) (cur : Named) : Option Named :=
  match string? a, string? b with
  | some m, some n => some (mk cur.repo m n .target)
  | _, _ => none

/-- entity_name.hpp:115-126 (`get_ref_type`). -/
def refType (s : Str) : Ref :=
  if s = "FILE".toList then .file
  else if s = "GLOB".toList then .glob
  else if s = "SYMLINK".toList then .symlink
  else .tree

/-- `is_null`. -/
def isNone : Json N → Bool
  | .null => true
  | _ => false

/-- entity_name.hpp:110-156 (`ParseEntityNameFSReference`); `rest` is the list without its first
element. -/
def parseFS (s0 : Str) (rest : List (Json N)) (cur : Named) : Option Named :=
  match rest with
  | [middle, name] =>
    match string? name with
    | none => none
    | some name =>
      if isNone middle then some (mk cur.repo cur.module name (refType s0))
      else
        match string? middle with
        | some m =>
          if m = ['.'] ∨ m = cur.module then some (mk cur.repo cur.module name (refType s0)) else none
        | none => none
  | _ => none

/-- entity_name.hpp:160-187 (`ParseEntityNameRelative`). -/
def parseRelative (rest : List (Json N)) (cur : Named) : Option Named :=
  match rest with
  | [a, b] =>
    match string? a, string? b with
    | some rel, some name =>
      let m := lexNormal (append cur.module rel)
      if m.take 3 ≠ ['.', '.', '/'] then some (mk cur.repo m name .target) else none
    | _, _ => none
  | _ => none

/-- entity_name.hpp:192-219 (`ParseEntityNameLocation`).  `bind` is `RepositoryConfig::GlobalName`
(repository_config.hpp:127-138). -/
def parseLocation (bind : Str → Str → Option Str) (rest : List (Json N)) (cur : Named) :
    Option Named :=
  match rest with
  | [a, b, c] =>
    match string? a, string? b, string? c with
    | some loc, some m, some n =>
      match bind cur.repo loc with
      | some r => some (mk r m n .target)
      | none => none
    | _, _, _ => none
  | _ => none

/-- entity_name.hpp:221-263 (`ParseEntityName_3`). -/
def parse3 (bind : Str → Str → Option Str) (a : Json N) (rest : List (Json N)) (cur : Named) :
    Option Named :=
  match string? a with
  | none => none
  | some s0 =>
    if s0 = "./".toList then parseRelative rest cur
    else if s0 = "@".toList then parseLocation bind rest cur
    else if s0 = "#".toList then none
    else if s0 = "FILE".toList ∨ s0 = "TREE".toList ∨ s0 = "GLOB".toList ∨ s0 = "SYMLINK".toList then
      parseFS s0 rest cur
    else none

/-- entity_name.hpp:262-294 (`ParseEntityName`).  The current target is a named one (otherwise an
exception is thrown, and the result is `nullopt`). -/
def parse (bind : Str → Str → Option Str) (src : Json N) (cur : Named) : Option Named :=
  match src with
  | .str s => some (mk cur.repo cur.module s .target)
  | .arr l =>
    match l with
    | [a, b] => parse2 a b cur
    | a :: b :: c :: t => parse3 bind a (b :: c :: t) cur
    | _ => none
  | _ => none

end Verif.Names
