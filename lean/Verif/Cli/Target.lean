import Verif.Names.Props

/-!
# The target asked for on the command line: model

Source: `src/buildtool/main/main.cpp:258-482` (`FindRoot`, `ReadConfiguration`, `DetermineCurrentModule`, `ReadConfiguredTarget`,
`DetermineWorkspaceRootByLookingForMarkers`), and the option `target` in `src/buildtool/common/cli.hpp`.

Absolute paths without symbolic links are lists of names. Every error is `none`, as the program ends then. What `Expression::FromJson`
does to numbers in the configuration is not considered.
-/

namespace Verif.Cli

open Verif

section
variable {N : Type}

/-- main.cpp:259-277 (`FindRoot`), on the names of the path in reverse order. -/
def findRev (has : List Str → Bool) : List Str → Option (List Str)
  | [] => if has [] then some [] else none
  | a :: t => if has (a :: t).reverse then some (a :: t).reverse else findRev has t

/-- main.cpp:259-277 (`FindRoot`): `has` tells whether there is one of the markers in a directory. -/
def findRoot (subdir : List Str) (has : List Str → Bool) : Option (List Str) := findRev has subdir.reverse

/-- `std::filesystem::proximate` for absolute paths without symbolic links: [fs.path.gen] `lexically_relative`. -/
def proximate : List Str → List Str → List Str
  | a :: p, b :: base => if a = b then proximate p base else (b :: base).map (fun _ => "..".toList) ++ a :: p
  | [], [] => [".".toList]
  | p, base => base.map (fun _ => "..".toList) ++ p

/-- The directory a relative path leads to: `.` stays. -/
def clean (l : List Str) : List Str := l.filter fun a => a ≠ ".".toList

/-- constants.hpp:21 (`kRootMarkers`). -/
def markers : List Str := [".git".toList, "ROOT".toList, "WORKSPACE".toList]

/-- main.cpp:462-482 (`DetermineWorkspaceRootByLookingForMarkers`): `entry d m` tells whether there is an entry `m` in the directory
`d`; no working directory is `none`. -/
def workspace (entry : List Str → Str → Bool) (cwd : Option (List Str)) : Option (List Str) :=
  cwd.bind fun c => (findRoot (proximate c []) fun d => markers.any (entry (clean d))).map clean

/-- What a root has at a path: files with their content as JSON value, `none` if it can not be read or parsed. -/
inductive Entry (N : Type)
  | missing
  | other
  | file (content : Option (Json N))

/-- `Exists` (file_root.hpp:460-484), for roots that do not ignore special entries. -/
def Entry.there : Entry N → Bool
  | .missing => false
  | _ => true

/-- What the program is called with. -/
structure Call (N : Type) where
  /-- The main repository, and what its bindings are (`RepositoryConfig::GlobalName`). -/
  repo : Str
  bind : Str → Str → Option Str
  /-- The working directory, `none` if it can not be determined. -/
  cwd : Option (List Str)
  /-- The workspace of the main repository, if it is a directory. -/
  workspace : Option (List Str)
  /-- The target root of the main repository, `none` if absent, and the name of target files. -/
  root : Option (List Str → Entry N)
  fileName : Str
  /-- The arguments that are no options (cli.hpp:312-323). -/
  args : List Str
  /-- The configuration file, if given: `some none` if it does not exist or is no JSON. -/
  config : Option (Option (Json N))
  /-- The definitions, `none` if not JSON. -/
  defines : List (Option (Json N))

/-- main.cpp:330-353 (`DetermineCurrentModule`), 367-373. -/
def currentModule (c : Call N) : List Str :=
  match c.workspace, c.cwd with
  | some ws, some cwd =>
    let subdir := proximate cwd ws
    if subdir.head? = some "..".toList then [".".toList]
    else
      let has := fun d => match c.root with
        | some look => (look (clean d ++ [c.fileName])).there
        | none => false
      (findRoot subdir has).getD [".".toList]
  | _, _ => [".".toList]

/-- main.cpp:281-306: what the configuration file has. -/
def configStart : Option (Option (Json N)) → Option (List (Str × Json N))
  | none => some []
  | some (some (.obj l)) => some l
  | some _ => none

/-- main.cpp:308-325: one definition; later bindings come first, so that they are found (`Configuration::Update`,
configuration.hpp:147-161). -/
def addDefine (cfg : Option (List (Str × Json N))) (d : Option (Json N)) : Option (List (Str × Json N)) :=
  cfg.bind fun cfg => match d with
    | some (.obj l) => some (l ++ cfg)
    | _ => none

/-- main.cpp:279-328 (`ReadConfiguration`). -/
def readConfiguration (c : Call N) : Option (List (Str × Json N)) := c.defines.foldl addDefine (configStart c.config)

/-- cli.hpp:312-323 (option `target`): one argument is the name, more are a list; none given. -/
def targetArgument : List Str → Option (Json N)
  | [] => none
  | [t] => some (.str t)
  | l => some (.arr (l.map .str))

/-- main.cpp:355-460 (`ReadConfiguredTarget`). -/
def readTarget (c : Call N) : Option (Names.Named × List (Str × Json N)) :=
  let module := currentModule c
  let cur := Names.mk c.repo (joinWith '/' module) [] .target
  (readConfiguration c).bind fun cfg =>
    match (targetArgument c.args : Option (Json N)) with
    | some t => (Names.parse c.bind t cur).map fun n => (n, cfg)
    | none =>
      match c.root with
      | none => (Names.parse c.bind (.arr [.str ".".toList, .str []] : Json N) cur).map fun n => (n, cfg)
      | some look =>
        match look (clean module ++ [c.fileName]) with
        | .file (some (.obj ((k, _) :: _))) => some (Names.mk c.repo (joinWith '/' module) k .target, cfg)
        | _ => none

end

end Verif.Cli
