import Verif.MrRc.Model

/-!
# just-mr: launching just

Model of

* `CallJust` (src/other_tools/just_mr/launch.cpp:60-429) with the table `kKnownJustSubcommands`
  (src/other_tools/just_mr/utils.hpp:49-154): the command that replaces the process,
* the options `just` accepts, per subcommand (src/buildtool/main/cli.cpp:28-177,
  src/buildtool/common/cli.hpp:211-861, src/buildtool/common/retry_cli.hpp:30-50).

Setting up the repositories is the subject of Verif.MrConfig; here its result is a parameter.  Of the syntax
that the library CLI11 accepts, an option is followed by its value as the next argument (the only form
just-mr produces); `--option=value`, values glued to short options, and `--` are not modelled.
-/

namespace Verif.MrRc

open Verif

/-! ## The options of just -/

/-- An option: its names, and whether it has a value. -/
structure Opt where
  names : List Str
  value : Bool

/-- An option with value. -/
def opt (l : List String) : Opt := ⟨l.map String.toList, true⟩

/-- A flag. -/
def flag (l : List String) : Opt := ⟨l.map String.toList, false⟩

/-- src/buildtool/common/cli.hpp:211-244. -/
def commonOpts : List Opt :=
  [opt ["-C", "--repository-config"], opt ["--main"], opt ["-w", "--workspace-root"], opt ["-j", "--jobs"]]

/-- src/buildtool/common/cli.hpp:246-284. -/
def logOpts : List Opt :=
  [opt ["-f", "--log-file"], opt ["--log-limit"], opt ["--restrict-stderr-log-limit"], flag ["--plain-log"],
   flag ["--log-append"]]

/-- src/buildtool/common/cli.hpp:286-381, without the options for graphs. -/
def analysisOpts : List Opt :=
  [opt ["--expression-log-limit"], opt ["-D", "--defines"], opt ["-c", "--config"],
   opt ["--request-action-input"], opt ["--target-root"], opt ["--rule-root"], opt ["--expression-root"],
   opt ["--target-file-name"], opt ["--rule-file-name"], opt ["--expression-file-name"],
   opt ["--serve-errors-log"], opt ["--profile"]]

/-- src/buildtool/common/cli.hpp:355-380. -/
def graphOpts : List Opt :=
  [opt ["--dump-graph"], opt ["--dump-plain-graph"], opt ["--dump-artifacts-to-build"]]

/-- src/buildtool/common/cli.hpp:383-392. -/
def describeOpts : List Opt := [flag ["--json"], flag ["--rule"]]

/-- src/buildtool/common/cli.hpp:394-442. -/
def diagnosticOpts : List Opt :=
  [opt ["--dump-actions"], opt ["--dump-trees"], opt ["--dump-blobs"], opt ["--dump-provides"],
   opt ["--dump-vars"], opt ["--dump-targets"], opt ["--dump-export-targets"], opt ["--dump-targets-graph"],
   opt ["--dump-anonymous"], opt ["--dump-nodes"], opt ["--dump-result"]]

/-- src/buildtool/common/cli.hpp:444-467. -/
def cacheOpts : List Opt := [opt ["--local-build-root"]]

/-- src/buildtool/common/cli.hpp:469-481. -/
def endpointOpts : List Opt := [opt ["-r", "--remote-execution-address"], opt ["--remote-instance-name"]]

/-- src/buildtool/common/cli.hpp:483-500. -/
def propertiesOpts : List Opt := [opt ["--endpoint-configuration"], opt ["--remote-execution-property"]]

/-- src/buildtool/common/cli.hpp:502-509. -/
def serveOpts : List Opt := [opt ["-R", "--remote-serve-address"]]

/-- src/buildtool/common/cli.hpp:511-544 (`SetupCommonBuildArguments`, `SetupBuildArguments`). -/
def buildOpts : List Opt := [opt ["-L", "--local-launcher"], opt ["--action-timeout"], opt ["-J", "--build-jobs"]]

/-- src/buildtool/common/cli.hpp:546-591 (`SetupExtendedBuildArguments`, `SetupTCArguments`). -/
def extendedOpts : List Opt :=
  [opt ["--dump-artifacts"], flag ["-s", "--show-runfiles"], opt ["-P", "--print-to-stdout"],
   flag ["-p", "--print-unique-artifact"], opt ["--target-cache-write-strategy"]]

/-- src/buildtool/common/cli.hpp:593-620. -/
def stageOpts : List Opt := [opt ["-o", "--output-dir"], flag ["--remember"]]

/-- src/buildtool/common/cli.hpp:622-636. -/
def rebuildOpts : List Opt := [opt ["--vs"], opt ["--dump-flaky"]]

/-- src/buildtool/common/cli.hpp:638-684. -/
def fetchOpts : List Opt :=
  [opt ["-o", "--output-path"], opt ["-P", "--sub-object-path"], flag ["--archive"], flag ["--raw-tree"],
   flag ["--remember"]]

/-- src/buildtool/common/cli.hpp:686-729. -/
def toAddOpts : List Opt := [flag ["--follow-symlinks"], opt ["--resolve-special"]]

/-- src/buildtool/common/cli.hpp:755-766 (`SetupProtocolArguments`). -/
def protocolOpts : List Opt := [flag ["--compatible"]]

/-- src/buildtool/common/cli.hpp:768-786 (`SetupCommonAuthArguments`, `SetupClientAuthArguments`). -/
def authOpts : List Opt := [opt ["--tls-ca-cert"], opt ["--tls-client-cert"], opt ["--tls-client-key"]]

/-- src/buildtool/common/retry_cli.hpp:30-50. -/
def retryOpts : List Opt :=
  [opt ["--max-attempts"], opt ["--initial-backoff-seconds"], opt ["--max-backoff-seconds"]]

/-- src/buildtool/common/cli.hpp:848-861. -/
def gcOpts : List Opt := [flag ["--no-rotate"], flag ["--all"]]

/-- src/buildtool/main/cli.cpp:66-84 (`SetupBuildCommandArguments`). -/
def buildCmdOpts : List Opt :=
  commonOpts ++ logOpts ++ analysisOpts ++ graphOpts ++ cacheOpts ++ endpointOpts ++ propertiesOpts ++
    serveOpts ++ authOpts ++ buildOpts ++ extendedOpts ++ protocolOpts ++ retryOpts

/-- src/buildtool/main/cli.cpp:28-160: the options of a subcommand known to just-mr, and of `serve`
(src/buildtool/common/cli.hpp:839-846; only a positional argument). -/
def justOpts (sub : Str) : Option (List Opt) :=
  assoc sub
    [("version".toList, []),
     ("describe".toList, commonOpts ++ cacheOpts ++ analysisOpts ++ logOpts ++ serveOpts ++ authOpts ++
        endpointOpts ++ protocolOpts ++ describeOpts ++ retryOpts),
     ("analyse".toList, commonOpts ++ logOpts ++ analysisOpts ++ graphOpts ++ cacheOpts ++ endpointOpts ++
        propertiesOpts ++ serveOpts ++ authOpts ++ buildOpts ++ diagnosticOpts ++ protocolOpts ++ retryOpts),
     ("build".toList, buildCmdOpts),
     ("install".toList, buildCmdOpts ++ stageOpts),
     ("rebuild".toList, buildCmdOpts ++ rebuildOpts),
     ("install-cas".toList, protocolOpts ++ cacheOpts ++ endpointOpts ++ authOpts ++ fetchOpts ++ logOpts ++
        retryOpts),
     ("add-to-cas".toList, protocolOpts ++ cacheOpts ++ endpointOpts ++ authOpts ++ logOpts ++ retryOpts ++
        toAddOpts),
     ("gc".toList, logOpts ++ cacheOpts ++ gcOpts),
     ("serve".toList, [])]

/-- The name events are recorded with: the last one of the option. -/
def Opt.key (o : Opt) : Str := (o.names.getLast?).getD []

/-- The option with a given name. -/
def lookup (t : List Opt) (name : Str) : Option (Str × Bool) :=
  (t.find? fun o => decide (name ∈ o.names)).map fun o => (o.key, o.value)

/-- What is found on the command line, in order. -/
inductive Event
  | option (key value : Str)
  | flag (key : Str)
  | positional (s : Str)
deriving DecidableEq

/-- Parsing the arguments of a subcommand.  An unknown option is an error, as is a missing value
(src/buildtool/main/cli.cpp:225-233). -/
def parse (t : List Opt) : List Str → Option (List Event)
  | [] => some []
  | x :: xs =>
    match lookup t x with
    | some (k, false) => (parse t xs).map fun es => .flag k :: es
    | some (k, true) =>
      match xs with
      | [] => none
      | v :: ys => (parse t ys).map fun es => .option k v :: es
    | none => if x.head? = some '-' then none else (parse t xs).map fun es => .positional x :: es

/-- The values given for an option, in order. -/
def values (k : Str) (es : List Event) : List Str :=
  es.filterMap fun e => match e with
    | .option k' v => if k' = k then some v else none
    | _ => none

/-- src/buildtool/main/cli.cpp:184 (`take_last`): the value of an option. -/
def valueOf (k : Str) (es : List Event) : Option Str := (values k es).getLast?

/-! ## The command -/

/-- src/other_tools/just_mr/utils.hpp:49-61 (`JustSubCmdFlags`). -/
structure Flags where
  config : Bool
  buildRoot : Bool
  launch : Bool
  defines : Bool
  remote : Bool
  remoteProps : Bool
  serve : Bool
  dispatch : Bool
  doesBuild : Bool

/-- No flag at all. -/
def noFlags : Flags := ⟨false, false, false, false, false, false, false, false, false⟩

/-- src/other_tools/just_mr/utils.hpp:64-154 (`kKnownJustSubcommands`). -/
def knownSubcommands : List (Str × Flags) :=
  [("version".toList, noFlags),
   ("describe".toList, ⟨true, true, false, true, true, false, true, false, false⟩),
   ("analyse".toList, ⟨true, true, true, true, true, true, true, true, false⟩),
   ("build".toList, ⟨true, true, true, true, true, true, true, true, true⟩),
   ("install".toList, ⟨true, true, true, true, true, true, true, true, true⟩),
   ("rebuild".toList, ⟨true, true, true, true, true, true, true, true, true⟩),
   ("add-to-cas".toList, { noFlags with buildRoot := true, remote := true }),
   ("install-cas".toList, { noFlags with buildRoot := true, remote := true }),
   ("gc".toList, { noFlags with buildRoot := true })]

/-- An option with value, if there is one. -/
def oarg (name : String) : Option Str → List Str
  | none => []
  | some v => [name.toList, v]

/-- A flag. -/
def farg (name : String) (b : Bool) : List Str := if b then [name.toList] else []

/-- An option for each of the values. -/
def margs (name : String) (vs : List Str) : List Str := vs.flatMap fun v => [name.toList, v]

section
variable {N : Type}

/-- How numbers, lists of strings and configurations are written on the command line. -/
structure Codec (N : Type) where
  number : Nat → Str
  list : List Str → Str
  map : OMap Str (Json N) → Str

/-- src/buildtool/common/clidefaults.hpp:23 (`kDefaultLogLevel`). -/
def defaultLogLevel : Nat := 3

/-- src/other_tools/just_mr/launch.cpp:189-208: the definitions are overlaid; all have to be maps. -/
def overlayDefines : List (Option (Json N)) → OMap Str (Json N) → Option (OMap Str (Json N))
  | [], m => some m
  | some (.obj l) :: t, m => overlayDefines t (update m (mk l))
  | _ :: _, _ => none

/-- src/other_tools/just_mr/launch.cpp:184-212. -/
def definesArgs (c : Codec N) (f : Flags) (a : Args N) : Option (List Str) :=
  if f.defines then
    (overlayDefines a.defines OMap.empty).map fun m =>
      oarg "-c" a.justConfig ++ (if m.items = [] then [] else ["-D".toList, c.map m])
  else some []

/-- src/other_tools/just_mr/launch.cpp:161-183: the arguments for logging. -/
def logArgs (c : Codec N) (a : Args N) : List Str :=
  (if a.logFiles = [] then [] else ["--log-append".toList] ++ margs "-f" a.logFiles) ++
  oarg "--log-limit" ((a.logLimit.filter fun n => n ≠ defaultLogLevel).map c.number) ++
  oarg "--restrict-stderr-log-limit" (a.restrictLimit.map c.number) ++
  farg "--plain-log" a.plainLog

/-- src/other_tools/just_mr/launch.cpp:213-251. -/
def remoteArgs (c : Codec N) (f : Flags) (a : Args N) : List Str :=
  if f.remote then
    farg "--compatible" a.compatible ++
    (match a.address with
      | none => []
      | some r => ["-r".toList, r] ++ oarg "--remote-instance-name" a.instanceName) ++
    oarg "--tls-ca-cert" a.ca ++ oarg "--tls-client-cert" a.cert ++ oarg "--tls-client-key" a.key ++
    oarg "--max-attempts" (a.maxAttempts.map c.number) ++
    oarg "--initial-backoff-seconds" (a.initialBackoff.map c.number) ++
    oarg "--max-backoff-seconds" (a.maxBackoff.map c.number)
  else []

/-- src/other_tools/just_mr/launch.cpp:252-266. -/
def serveArgs (f : Flags) (a : Args N) : List Str :=
  oarg "--endpoint-configuration" (if f.dispatch then a.endpointConfig else none) ++
  oarg "-R" (if f.serve then a.serve else none) ++
  margs "--remote-execution-property" (if f.remoteProps then a.properties else [])

/-- src/other_tools/just_mr/launch.cpp:148-160: configuration, local build root and launcher.  The build root is
forwarded if it is not the default one (src/other_tools/just_mr/main.cpp:289-294). -/
def earlyArgs (c : Codec N) (f : Flags) (a : Args N) (cfg : Str) : List Str :=
  oarg "-C" (if f.config then some cfg else none) ++
  oarg "--local-build-root" (if f.buildRoot then a.root else none) ++
  oarg "--local-launcher"
    (if f.launch then (a.launcher.filter fun l => l ≠ defaultLauncher).map c.list else none)

/-- src/other_tools/just_mr/launch.cpp:148-266: everything forwarded. -/
def forwarded (c : Codec N) (f : Flags) (a : Args N) (cfg : Str) : Option (List Str) :=
  (definesArgs c f a).map fun d => earlyArgs c f a cfg ++ logArgs c a ++ d ++ remoteArgs c f a ++ serveArgs f a

/-- `std::filesystem::path::operator/` for a file name without slashes. -/
def below (dir name : Str) : Str := dir ++ "/".toList ++ name

/-- An option naming a file in the directory of the invocation; the name has to be one of a file
(src/other_tools/just_mr/launch.cpp:313-370). -/
def fileArg (name : String) (dir : Str) : Option Str → Option (List Str)
  | none => some []
  | some n => if Path.isValidFileName n then some [name.toList, below dir n] else none

/-- src/other_tools/just_mr/launch.cpp:312-370: the options depending on the invocation. -/
def invocationArgs (f : Flags) (i : Invocation) : Option Str → Option (List Str)
  | none => some []
  | some dir =>
    if f.remoteProps then do
      let a ← fileArg "--dump-graph" dir i.graphFile
      let b ← fileArg "--dump-plain-graph" dir i.graphFilePlain
      let c ← fileArg "--dump-artifacts-to-build" dir i.artifactsToBuild
      let d ← fileArg "--dump-artifacts" dir (if f.doesBuild then i.artifacts else none)
      let e ← fileArg "--profile" dir i.profile
      some (a ++ b ++ c ++ d ++ e)
    else some []

/-- src/other_tools/just_mr/launch.cpp:276-311: the directory of the invocation, if there is one; `id` is the
time with a unique identifier.  The outer `none` is an invalid project id. -/
def logDir (made : Str → Bool) (i : Invocation) (id : Str) : Option (Option Str) :=
  match i.directory with
  | none => some none
  | some d =>
    let go := fun (p : Str) =>
      let dir := below (below d p) id
      some (if made dir then some dir else none)
    match i.projectId with
    | none => go "unknown".toList
    | some p => if Path.isValidFileName p then go p else none

/-- src/other_tools/just_mr/launch.cpp:74-80: the subcommand, and the remaining arguments. -/
def subcommandOf (a : Args N) : Option Str × List Str :=
  match a.subcommand, a.extra with
  | some s, l => (some s, l)
  | none, s :: l => (some s, l)
  | none, [] => (none, [])

/-- The outside world: whether the directory for an invocation could be created, the identifier of the
invocation, and the result of setting up the repositories. -/
structure World where
  made : Str → Bool
  id : Str
  setup : Option Str

/-- What is executed, and the command line recorded in the metadata file, with the name of that file. -/
structure Launch where
  cmd : List Str
  metadata : Option (Str × List Str)

/-- The configuration, if the subcommand needs one; the outer `none` is an error when setting up
(src/other_tools/just_mr/launch.cpp:99-133). -/
def configFor (w : World) (f : Flags) : Option Str :=
  if f.config then w.setup else some []

/-- src/other_tools/just_mr/launch.cpp:379-413: the metadata file. -/
def metadataOf (i : Invocation) (dir : Option Str) (cmd : List Str) : Option (Option (Str × List Str)) :=
  match dir, i.metadata with
  | some d, some n => if Path.isValidFileName n then some (some (below d n, cmd)) else none
  | _, _ => some none

/-- src/other_tools/just_mr/launch.cpp:60-429 (`CallJust`). -/
def launch (c : Codec N) (w : World) (a : Args N) : Option Launch := do
  let sub := (subcommandOf a).1
  let f := (sub.bind fun s => assoc s knownSubcommands).getD noFlags
  let cfg ← configFor w f
  let fwd ← forwarded c f a cfg
  let dir ← logDir w.made a.invocation w.id
  let inv ← invocationArgs f a.invocation dir
  let cmd := [a.just.getD "just".toList] ++ sub.toList ++ fwd ++
    ((sub.bind fun s => a.justArgs.find s).getD []) ++ inv ++ (subcommandOf a).2
  let meta' ← metadataOf a.invocation dir cmd
  some ⟨cmd, meta'⟩

end

end Verif.MrRc
