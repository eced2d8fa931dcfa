import Verif.Util.OMap
import Verif.Util.Json
import Verif.Path.Model

/-!
# just-mr: the rc files

Model of

* `ReadLocationObject` (src/buildtool/common/location.cpp:22-53),
* `MergeMRRC` (src/other_tools/just_mr/rc_merge.cpp:32-74),
* `ObtainRCConfig`, `ReadJustMRRC` (src/other_tools/just_mr/rc.cpp:46-140, 142-693),
* the defaults that are filled in afterwards (src/other_tools/just_mr/main.cpp:264-335).

An error ends just-mr, as does an exception; both are `none`.  Numbers are an arbitrary type; how they are
turned into log levels and unsigned integers is part of the environment.  Objects are looked up via ordered
maps (`mk`); for what `nlohmann::json` and `Expression` produce, where keys are ascending, this is the
association list itself.
-/

namespace Verif.MrRc

open Verif

section
variable {N : Type}

/-- The map for a list of entries; later ones win. -/
def mk {V : Type} (l : List (Str × V)) : OMap Str V :=
  l.foldl (fun m p => m.assign p.1 p.2) OMap.empty

/-- An entry of a JSON value: `none` if it is not an object, or has no such entry. -/
def get (k : Str) : Json N → Option (Json N)
  | .obj l => (mk l).find k
  | _ => none

/-- A configuration, i.e. the content of an rc file (src/buildtool/build_engine/expression/configuration.hpp). -/
abbrev Rc (N : Type) := OMap Str (Json N)

/-- src/buildtool/build_engine/expression/configuration.hpp:47-55 (`operator[]`): what is missing is `null`. -/
def field (k : Str) (m : Rc N) : Json N := (m.find k).getD .null

/-- src/buildtool/build_engine/expression/configuration.hpp:147-160 (`Update` with a map). -/
def update (base delta : OMap Str (Json N)) : OMap Str (Json N) :=
  delta.items.foldl (fun m p => m.assign p.1 p.2) base

/-! ## Merging -/

/-- The elements of a list, none for anything else (src/other_tools/just_mr/rc_merge.cpp:43-53). -/
def elems : Json N → List (Json N)
  | .arr l => l
  | _ => []

/-- The entries of an object, none for anything else (src/other_tools/just_mr/rc_merge.cpp:61-69). -/
def entries : Json N → OMap Str (Json N)
  | .obj l => mk l
  | _ => OMap.empty

/-- src/other_tools/just_mr/rc_merge.cpp:26 (`kAccumulating`). -/
def accumulating : List Str := ["distdirs".toList]

/-- src/other_tools/just_mr/rc_merge.cpp:27-28 (`kLocalMerge`). -/
def localMerge : List Str := ["just args".toList, "just files".toList, "invocation log".toList]

/-- src/other_tools/just_mr/rc_merge.cpp:32-74 (`MergeMRRC`). -/
def merge (base delta : Rc N) : Rc N :=
  let r := update base delta
  let r := accumulating.foldl
    (fun r f => r.assign f (.arr (elems (field f delta) ++ elems (field f base)))) r
  localMerge.foldl
    (fun r f => r.assign f (.obj (update (update OMap.empty (entries (field f base)))
      (entries (field f delta))).items)) r

/-! ## Environment -/

/-- What reading depends on: the workspace root of the invocation (if there is one), the user's home
directory, the canonical path of a path below a directory (`weakly_canonical(root / path)`), the file system,
and the conversion of numbers (`ToLogLevel`, `lround`). -/
structure Env (N : Type) where
  ws : Option Str
  home : Str
  canonical : Str → Str → Str
  isFile : Str → Bool
  isDir : Str → Bool
  content : Str → Option (Json N)
  level : N → Nat
  unsigned : N → Nat

/-- src/buildtool/common/location.cpp:32-33: the base of a location. -/
def baseOf (j : Json N) : Option Str :=
  match get "base".toList j with
  | none => some ".".toList
  | some (.str b) => some b
  | some _ => none

/-- src/buildtool/common/location.cpp:22-53 (`ReadLocationObject`): the outer `none` is an error, the inner one
a location that is ignored.  Any other value for `"root"` gives the empty path, i.e. the working directory
(lines 35-51). -/
def readLocation (env : Env N) (j : Json N) : Option (Option (Str × Str)) :=
  match get "path".toList j, get "root".toList j with
  | some (.str path), some (.str root) =>
    match baseOf j with
    | none => none
    | some base =>
      if root = "workspace".toList then
        some (env.ws.map fun w => (env.canonical w path, env.canonical w base))
      else
        let r := if root = "home".toList then env.home
          else if root = "system".toList then "/".toList else []
        some (some (env.canonical r path, env.canonical r base))
  | _, _ => none

/-- src/other_tools/just_mr/rc.cpp:46-61 (`ReadLocation` for an expression): `null` is ignored. -/
def readEntry (env : Env N) : Json N → Option (Option (Str × Str))
  | .null => some none
  | j => readLocation env j

/-- The path of a location that may be missing. -/
def optLocation (env : Env N) (j : Json N) : Option (Option Str) :=
  (readEntry env j).map fun r => r.map Prod.fst

/-- The first of the locations that is an existing file; those after it are not looked at
(src/other_tools/just_mr/rc.cpp:92-98, 586-593, 668-690). -/
def firstFile (env : Env N) : List (Json N) → Option (Option (Str × Str))
  | [] => some none
  | j :: l =>
    match readEntry env j with
    | none => none
    | some (some p) => if env.isFile p.1 then some (some p) else firstFile env l
    | some none => firstFile env l

/-- src/other_tools/just_mr/rc.cpp:76-99 (`ReadOptionalLocationList`). -/
def optLocationList (env : Env N) : Json N → Option (Option Str)
  | .null => some none
  | .arr l => (firstFile env l).map fun r => r.map Prod.fst
  | _ => none

/-- All locations that are not ignored (src/other_tools/just_mr/rc.cpp:458-463). -/
def locations (env : Env N) : List (Json N) → Option (List Str)
  | [] => some []
  | j :: l =>
    match readEntry env j, locations env l with
    | some (some p), some ps => some (p.1 :: ps)
    | some none, some ps => some ps
    | _, _ => none

/-- A list of strings. -/
def strings : List (Json N) → Option (List Str)
  | [] => some []
  | .str s :: l => (strings l).map fun r => s :: r
  | _ :: _ => none

/-- A value that may be missing, and otherwise has to be a string. -/
def optString : Json N → Option (Option Str)
  | .null => some none
  | .str s => some (some s)
  | _ => none

/-- A value that may be missing, and otherwise has to be a number. -/
def optNumber (f : N → Nat) : Json N → Option (Option Nat)
  | .null => some none
  | .num n => some (some (f n))
  | _ => none

/-- The string, if it is one; anything else is ignored (src/other_tools/just_mr/rc.cpp:608-652). -/
def asString : Json N → Option Str
  | .str s => some s
  | _ => none

/-- The rest of a map, if it is one or missing. -/
def optMap : Json N → Option (OMap Str (Json N))
  | .null => some OMap.empty
  | .obj l => some (mk l)
  | _ => none

/-- What is given on the command line is taken, and the rc file not looked at. -/
def orElse {α : Type} (given : Option α) (other : Option (Option α)) : Option (Option α) :=
  match given with
  | some a => some (some a)
  | none => other

/-! ## Arguments -/

/-- src/other_tools/just_mr/cli.hpp:93-105 (`InvocationLogArguments`). -/
structure Invocation where
  directory : Option Str := none
  message : Option Str := none
  contextVars : List Str := []
  projectId : Option Str := none
  metadata : Option Str := none
  graphFile : Option Str := none
  graphFilePlain : Option Str := none
  artifactsToBuild : Option Str := none
  artifacts : Option Str := none
  profile : Option Str := none
deriving DecidableEq

/-- src/other_tools/just_mr/cli.hpp:42-160 (`CommandLineArguments`), as far as it is used when launching `just`,
and the configuration found (the result of `ReadJustMRRC`, and `LocalPaths::setup_root`,
`none` for the working directory).  The entries given by
`--defines` are strings holding JSON. -/
structure Args (N : Type) where
  rcPath : Option Str := none
  norc : Bool := false
  repositoryConfig : Option Str := none
  absentFile : Option Str := none
  checkout : Option Str := none
  root : Option Str := none
  just : Option Str := none
  git : Option Str := none
  distdirs : List Str := []
  explicitDistdirs : List Str := []
  launcher : Option (List Str) := none
  defines : List (Option (Json N)) := []
  address : Option Str := none
  instanceName : Option Str := none
  compatible : Bool := false
  serve : Option Str := none
  logFiles : List Str := []
  logLimit : Option Nat := none
  restrictLimit : Option Nat := none
  plainLog : Bool := false
  ca : Option Str := none
  cert : Option Str := none
  key : Option Str := none
  maxAttempts : Option Nat := none
  initialBackoff : Option Nat := none
  maxBackoff : Option Nat := none
  subcommand : Option Str := none
  extra : List Str := []
  justConfig : Option Str := none
  endpointConfig : Option Str := none
  justArgs : OMap Str (List Str) := OMap.empty
  properties : List Str := []
  invocation : Invocation := {}
  configFile : Option Str := none
  setupRoot : Option Str := none

/-- src/buildtool/common/clidefaults.hpp:24-25 (`kDefaultLauncher`). -/
def defaultLauncher : List Str := ["env".toList, "--".toList]

/-! ## Reading -/

/-- src/other_tools/just_mr/rc.cpp:222-240: the checkout locations. -/
def readCheckout (env : Env N) (j : Json N) : Option (Option Str) :=
  match optLocation env j with
  | some (some p) => if env.isFile p then some (some p) else none
  | r => r

/-- src/other_tools/just_mr/rc.cpp:241-268: the distdirs; those that do not exist are ignored. -/
def readDistdirs (env : Env N) : Json N → Option (List Str)
  | .null => some []
  | .arr l => (locations env l).map fun ps => ps.filter fun p => env.isDir p
  | _ => none

/-- src/other_tools/just_mr/rc.cpp:446-466: additional log files. -/
def readLogFiles (env : Env N) : Json N → Option (List Str)
  | .null => some []
  | .arr l => locations env l
  | _ => none

/-- A list of strings, or nothing. -/
def optStrings : Json N → Option (Option (List Str))
  | .null => some none
  | .arr l => (strings l).map some
  | _ => none

/-- src/other_tools/just_mr/rc.cpp:305-329: the arguments for `just`, one entry after the other. -/
def readJustArgs : List (Str × Json N) → Option (List (Str × List Str))
  | [] => some []
  | (c, .arr l) :: t =>
    match strings l, readJustArgs t with
    | some as, some r => some ((c, as) :: r)
    | _, _ => none
  | _ :: _ => none

/-- src/other_tools/just_mr/rc.cpp:599-660: the invocation log. -/
def readInvocation (env : Env N) (m : OMap Str (Json N)) : Option Invocation :=
  match optLocation env (field "directory".toList m) with
  | none => none
  | some none => some {}
  | some (some d) => some
      { directory := some d
        projectId := asString (field "project id".toList m)
        metadata := asString (field "metadata".toList m)
        graphFile := asString (field "--dump-graph".toList m)
        graphFilePlain := asString (field "--dump-plain-graph".toList m)
        artifactsToBuild := asString (field "--dump-artifacts-to-build".toList m)
        artifacts := asString (field "--dump-artifacts".toList m)
        profile := asString (field "--profile".toList m)
        message := asString (field "invocation message".toList m)
        contextVars := (elems (field "context variables".toList m)).filterMap asString }

/-- src/other_tools/just_mr/utils.hpp:156-160 (`kDefaultConfigLocations`). -/
def defaultLocations : List (Json N) :=
  [.obj [("path".toList, .str "repos.json".toList), ("root".toList, .str "workspace".toList)],
   .obj [("path".toList, .str "etc/repos.json".toList), ("root".toList, .str "workspace".toList)],
   .obj [("path".toList, .str ".just-repos.json".toList), ("root".toList, .str "home".toList)],
   .obj [("path".toList, .str "etc/just-repos.json".toList), ("root".toList, .str "system".toList)]]

/-- src/other_tools/just_mr/rc.cpp:664-691: the multi-repository configuration. -/
def readLookup (env : Env N) : Json N → Option (Option (Str × Str))
  | .null => firstFile env defaultLocations
  | .arr l => firstFile env l
  | _ => none

/-- src/other_tools/just_mr/rc.cpp:581-597: the file of absent repositories; a value that is not a list is
ignored. -/
def readAbsent (env : Env N) (j : Json N) : Option (Option Str) :=
  (firstFile env (elems j)).map fun r => r.map Prod.fst

/-- src/other_tools/just_mr/rc.cpp:508-523: the protocol. -/
def readCompatible (given : Bool) (j : Json N) : Option Bool :=
  if given then some true
  else match j with
    | .null => some false
    | .bool b => some b
    | _ => none

/-- src/other_tools/just_mr/rc.cpp:207-691: the settings, from the effective rc. -/
def applyRc (env : Env N) (a : Args N) (rc : Rc N) : Option (Args N) := do
  let root ← orElse a.root (optLocation env (field "local build root".toList rc))
  let checkout ← orElse a.checkout (readCheckout env (field "checkout locations".toList rc))
  let distdirs ← readDistdirs env (field "distdirs".toList rc)
  let just ← orElse a.just (optLocation env (field "just".toList rc))
  let git ← orElse a.git (optLocation env (field "git".toList rc))
  let files ← optMap (field "just files".toList rc)
  let justConfig ← optLocationList env (field "config".toList files)
  let endpointConfig ← optLocationList env (field "endpoint-configuration".toList files)
  let jargs ← optMap (field "just args".toList rc)
  let justArgs ← readJustArgs jargs.items
  let properties ← optStrings (field "remote-execution properties".toList rc)
  let maxAttempts ← orElse a.maxAttempts (optNumber env.unsigned (field "max attempts".toList rc))
  let initialBackoff ← orElse a.initialBackoff
    (optNumber env.unsigned (field "initial backoff seconds".toList rc))
  let maxBackoff ← orElse a.maxBackoff (optNumber env.unsigned (field "max backoff seconds".toList rc))
  let launcher ← orElse a.launcher (optStrings (field "local launcher".toList rc))
  let logLimit ← orElse a.logLimit (optNumber env.level (field "log limit".toList rc))
  let restrictLimit ← orElse a.restrictLimit
    (optNumber env.level (field "restrict stderr log limit".toList rc))
  let logFiles ← readLogFiles env (field "log files".toList rc)
  let remote ← optMap (field "remote execution".toList rc)
  let address ← orElse a.address (optString (field "address".toList remote))
  let instanceName ← orElse a.instanceName (optString (field "instance name".toList remote))
  let compatible ← readCompatible a.compatible (field "compatible".toList remote)
  let serveMap ← optMap (field "remote serve".toList rc)
  let serve ← orElse a.serve (optString (field "address".toList serveMap))
  let auth ← optMap (field "authentication".toList rc)
  let ca ← orElse a.ca (optLocation env (field "ca cert".toList auth))
  let cert ← orElse a.cert (optLocation env (field "client cert".toList auth))
  let key ← orElse a.key (optLocation env (field "client key".toList auth))
  let absentFile ← orElse a.absentFile (readAbsent env (field "absent".toList rc))
  let log ← optMap (field "invocation log".toList rc)
  let invocation ← readInvocation env log
  let found ← readLookup env (field "config lookup order".toList rc)
  some { a with
    root := root, checkout := checkout, distdirs := distdirs, just := just, git := git
    justConfig := justConfig, endpointConfig := endpointConfig, justArgs := mk justArgs
    properties := properties.getD [], maxAttempts := maxAttempts, initialBackoff := initialBackoff
    maxBackoff := maxBackoff, launcher := some (launcher.getD defaultLauncher)
    logLimit := logLimit, restrictLimit := restrictLimit, logFiles := a.logFiles ++ logFiles
    address := address, instanceName := instanceName, compatible := compatible, serve := serve
    ca := ca, cert := cert, key := key, absentFile := absentFile, invocation := invocation
    configFile := found.map Prod.fst, setupRoot := (found.map Prod.snd).or a.setupRoot }

/-- The content of an rc file that exists: it has to be an object
(src/other_tools/just_mr/rc.cpp:117-136, 170-193). -/
def readFile (env : Env N) (p : Str) : Option (Rc N) :=
  match env.content p with
  | some (.obj l) => some (mk l)
  | _ => none

/-- src/other_tools/just_mr/rc.cpp:101-140 (`ObtainRCConfig`); the default is `.just-mrrc` in the home directory
(src/other_tools/just_mr/utils.hpp:38). -/
def obtain (env : Env N) (a : Args N) : Option (Rc N) :=
  if a.norc then some OMap.empty
  else match a.rcPath with
    | some p => if env.isFile p then readFile env p else none
    | none =>
      let p := env.canonical env.home ".just-mrrc".toList
      if env.isFile p then readFile env p else some OMap.empty

/-- src/other_tools/just_mr/rc.cpp:161-197: the files to overlay, in order; a location without file is
skipped. -/
def overlayAll (env : Env N) : List (Json N) → Rc N → Option (Rc N)
  | [], rc => some rc
  | j :: l, rc =>
    match readEntry env j with
    | none => none
    | some none => overlayAll env l rc
    | some (some p) =>
      if env.isFile p.1 then
        match readFile env p.1 with
        | some d => overlayAll env l (merge rc d)
        | none => none
      else overlayAll env l rc

/-- src/other_tools/just_mr/rc.cpp:144-197: the effective rc. -/
def effective (env : Env N) (a : Args N) : Option (Rc N) :=
  match obtain env a with
  | none => none
  | some rc =>
    match field "rc files".toList rc with
    | .null => some rc
    | .arr l => overlayAll env l rc
    | _ => none

/-- src/other_tools/just_mr/rc.cpp:199-205: what is written for `--dump-rc`. -/
def dumped (rc : Rc N) : Json N :=
  .obj (rc.items.filter fun p => p.1 ≠ "rc files".toList)

/-- src/other_tools/just_mr/rc.cpp:146-693 (`ReadJustMRRC`). -/
def readRc (env : Env N) (a : Args N) : Option (Args N) :=
  (effective env a).bind (applyRc env a)

/-- src/other_tools/just_mr/main.cpp:270-304, 329-332: the defaults.  A configuration given explicitly wins, and
explicitly given distdirs are appended. -/
def complete (env : Env N) (a : Args N) : Args N :=
  { a with
    configFile := match a.repositoryConfig with | some f => some f | none => a.configFile
    setupRoot := match a.repositoryConfig with | some _ => none | none => a.setupRoot
    just := some (a.just.getD "just".toList)
    git := some (a.git.getD "git".toList)
    distdirs := (if a.distdirs = [] then [env.home ++ "/.distfiles".toList] else a.distdirs) ++
      a.explicitDistdirs }

end

end Verif.MrRc
