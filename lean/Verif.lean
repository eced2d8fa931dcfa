import Verif.Util.OMap
import Verif.LinkedMap.Model
import Verif.LinkedMap.Spec
import Verif.LinkedMap.Lemmas
import Verif.LinkedMap.Props
import Verif.Chunker.Model
import Verif.Chunker.Spec
import Verif.Chunker.Lemmas
import Verif.Chunker.Props
import Verif.Storage.Model
import Verif.Storage.Spec
import Verif.Storage.Logic
import Verif.Storage.Inv
import Verif.Storage.Local
import Verif.Storage.LocalTree
import Verif.Storage.GcModel
import Verif.Storage.Global
import Verif.Storage.Compact
import Verif.Storage.System
import Verif.Storage.Example
import Verif.Storage.Trace
import Verif.Storage.Promote
import Verif.Storage.Tasks
import Verif.Storage.Witness
import Verif.Storage.Props
import Verif.Util.Split
import Verif.Path.Model
import Verif.Path.Spec
import Verif.Path.Lemmas
import Verif.Path.Props
import Verif.Util.Json
import Verif.Names.Model
import Verif.Names.Props
import Verif.Stage.Model
import Verif.Stage.Lemmas
import Verif.Stage.DirLemmas
import Verif.Stage.Props
import Verif.Stage.Install
import Verif.Stage.InstallProps
import Verif.Util.Decimal
import Verif.Expr.Val
import Verif.Expr.Model
import Verif.Expr.Scope
import Verif.Expr.Spec
import Verif.Expr.Param
import Verif.Expr.Theory
import Verif.Expr.Props
import Verif.Expr.Subdir
import Verif.Digest.Model
import Verif.Digest.Props
import Verif.Artifact.Model
import Verif.Artifact.Props
import Verif.Expr.Hash
import Verif.Expr.HashProps
import Verif.Expr.Encode
import Verif.Result.Model
import Verif.Result.Spec
import Verif.Result.Lemmas
import Verif.Result.Props
import Verif.Action.Props
import Verif.Expr.NodeEq
import Verif.Tree.Git
import Verif.Tree.Props
import Verif.Remote.Retry
import Verif.Remote.OpCache
import Verif.Remote.Batch
import Verif.Remote.Missing
import Verif.Remote.BatchUpdate
import Verif.Remote.Upload
import Verif.Repo.Minimizer
import Verif.Repo.Key
import Verif.Repo.KeyProps
import Verif.Repo.KeyCache
import Verif.Exec.LocalAction
import Verif.Dag.Traverser
import Verif.Dag.Inv
import Verif.Dag.Safety
import Verif.Dag.Live
import Verif.Dag.Props
import Verif.Dag.Ends
import Verif.Dag.Build
import Verif.Dag.Marks
import Verif.Tasks.Model
import Verif.Tasks.Inv
import Verif.Tasks.Safety
import Verif.Tasks.Props
import Verif.Tasks.Live
import Verif.Tasks.Example
import Verif.Async.Cycle
import Verif.Async.Map
import Verif.Async.Inv
import Verif.Async.Safety
import Verif.Async.Out
import Verif.Async.Invariant
import Verif.Async.More
import Verif.Async.Props
import Verif.Async.Example
import Verif.Analyse.ResultMap
import Verif.Analyse.ResultMapProps
import Verif.Analyse.Target
import Verif.Analyse.TargetLemmas
import Verif.Analyse.TargetProps
import Verif.Symlinks.Spec
import Verif.Symlinks.Model
import Verif.Symlinks.Lemmas
import Verif.Symlinks.Sound
import Verif.Symlinks.More
import Verif.Symlinks.Cycle
import Verif.Symlinks.Props
import Verif.Action.Builtin
import Verif.Action.BuiltinProps
import Verif.Expr.Built
import Verif.Analyse.RuleFns
import Verif.Analyse.RuleFnsProps
import Verif.Analyse.BuiltinTargets
import Verif.Analyse.TaintProps
import Verif.Analyse.BuiltinTargetsProps
import Verif.TargetCache.Model
import Verif.TargetCache.Props
import Verif.TargetCache.Example
import Verif.Remote.Wire
import Verif.Remote.ActionKey
import Verif.Remote.ActionKeyProps
import Verif.Remote.Directory
import Verif.Remote.Rehash
import Verif.Remote.RehashProps
import Verif.Remote.RehashGitProps
import Verif.Remote.RehashExample
import Verif.Remote.Response
import Verif.Remote.ResponseProps
import Verif.Remote.ResponseRound
import Verif.Remote.ResponseExample
import Verif.Repo.ArtifactsRoot
import Verif.Repo.ArtifactsRootProps
import Verif.Repo.ArtifactsRootExample
import Verif.Tree.Install
import Verif.Tree.InstallLemmas
import Verif.Tree.InstallProps
import Verif.Tree.InstallImport
import Verif.Tree.InstallExample
import Verif.Repo.Structure
import Verif.Repo.StructureProps
import Verif.Repo.StructureLocal
import Verif.Repo.StructureExample
import Verif.Remote.Download
import Verif.Remote.DownloadProps
import Verif.Remote.DownloadExample
import Verif.Remote.Stream
import Verif.Remote.StreamProps
import Verif.Remote.StreamExample
import Verif.Storage.ServerProps
import Verif.Storage.ServerExample
import Verif.Root.Props
import Verif.Root.Example
import Verif.Dag.ExecutorProps
import Verif.Dag.ExecutorExample
import Verif.Mr.Props
import Verif.Mr.CommitProps
import Verif.Mr.TreeProps
import Verif.MrConfig.Complete
import Verif.MrConfig.JustArguments
import Verif.MrRc.Examples
import Verif.MrRc.LaunchFiles
import Verif.Serve.RootsExample
import Verif.Serve.RequestExample
import Verif.Serve.TargetProps
import Verif.Serve.VariablesProps
import Verif.Serve.SourceProps
import Verif.Dag.RebuildProps
import Verif.Dag.RebuildExample
import Verif.Analyse.RulesProps
import Verif.Analyse.RulesExample
import Verif.Net.UrlProps
import Verif.Net.UrlExample
import Verif.Repo.EvaluateProps
import Verif.Repo.EvaluateExample
import Verif.AddCas.Props
import Verif.AddCas.Example
import Verif.InstallCas.Archive
import Verif.InstallCas.Example
import Verif.Remote.ClientProps
import Verif.MrUpdate.Example
import Verif.Mirrors.Example
import Verif.Cli.TargetExample
import Verif.MrFetch.Example
import Verif.Request.Example
import Verif.Dump.Example
import Verif.JsonText.Example
import Verif.Dump.TargetsProps
import Verif.Auth.Props
