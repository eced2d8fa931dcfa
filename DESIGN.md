# Formal model of justbuild: design

The code under study is `/repo` (C++).  The model is written in Lean 4 (4.33.0)
under `lean/Verif/`.  Nothing of `/repo` is executed; the model is transcribed
by hand, function by function, and every definition cites the file and lines it
was transcribed from.

## Layout

Each area has its own directory `lean/Verif/<Area>/`:

* `Model.lean` – the transcription of the C++ code (total, computable functions,
  or a labelled transition system where the code is concurrent or may crash),
* `Spec.lean` – a small specification that does not use the model's helpers,
* `Lemmas.lean` – auxiliary lemmas,
* `Props.lean` – the property theorems, each with an `example` showing that
  its hypotheses can be met by a non-trivial case.

## Trusted base

* Lean's kernel; the axioms `propext`, `Classical.choice`, `Quot.sound` (no
  others; no `sorry`, no `native_decide`, no `bv_decide`).
* The transcription from C++ to Lean (cited line by line, simplifications are
  listed in the comments of the definitions and below).
* The C++ standard library, libgit2, protobuf, gRPC, the file system, and the
  hash functions are not verified.  Where a theorem speaks about hashes, the
  hash is an arbitrary function, and injectivity is assumed only on the explicit
  finite set of strings hashed in the statement (never globally, which would
  be unsatisfiable).
* Concurrency is modelled as interleaving of atomic steps, i.e. with
  sequentially consistent atomics (which is what the code uses by default) and
  critical sections under a mutex as one step.
* Undefined behaviour is a distinguished outcome of the model wherever an
  access could be out of range.

## Plan per property

| id | what is modelled | how proved |
|----|------------------|------------|
| C01 | `LinkedMap` tower (`next`, `content`, `map`), `Find`, `ComputeSortedItems` | induction over the tower; sorted merge lemma |
| C02, C03 | `Union` divide and conquer, `FindConflictingDuplicate` | induction on range length; refinement to finite maps |
| C04 | `Configuration::Prune/Update/operator[]` | finite-map extensionality |
| C05 | core evaluator as big-step function with fuel | induction on fuel; free-variable analysis |
| C06 | `ShellQuote`, `join_cmd`; spec = POSIX word splitter | induction over characters |
| C07 | `nub_left`, `nub_right` | induction over lists |
| C08 | `enumerate`, `fmt {:010d}`; spec = lexicographic order on strings | digit-wise order lemma |
| C09 | `ComputeHash`, abstract hash function | structural induction, injectivity on the finite set of hashed strings |
| C10 | `ExpandQuasiQuote*` | witness for the violation; partial theorem for literals without maps in lists |
| C11, C13 | `NextChunkBoundary`, buffer handling, UB outcome | loop invariants |
| C12 | `Split`, `TrySplice`, `Splice` | from C11 plus digest check |
| C14–C20 | generational store as state machine with crash points | invariants by induction over histories |
| C21 | `LocalAction::Execute` decision logic | case analysis over state |
| C22–C24 | `Traverser` as transition system over arbitrary DAGs | inductive invariants |
| C25, C26 | `AsyncMapNode`, `ConsumeAfterKeysReady` as transition system | inductive invariants |
| C27 | `DetectCycle` explicit-stack DFS | loop invariants, UB outcome for stack accesses |
| C28 | `TaskSystem` counters and queues as transition system | inductive invariant |
| C29 | `ResultTargetMap::Add/ToResult` | sorting of sets is canonical |
| C30, C31, C33 | tree overlay on nested trees; `ParseGitTree` | structural induction; witness for the violation |
| C32 | git tree serialiser and parser on bytes | round trip by induction |
| C34 | `DirectoryTree::AddArtifact` | refinement to prefix-free path sets |
| C35 | symlink resolver (`Symlinks/`) | inductive set of values possible, refined to following links the way an operating system does (`Leads`); stuck sets for cycles, accessibility for existence |
| C36, C50 | upload of blob trees through the container | invariant over event trace |
| C37, C38 | `tree_conflict`, `artifacts_tree`, `ExprToTree` | iff characterisation; witness for the violation |
| C39–C41, C43 | `lexically_normal` and the path predicates | refinement to a walk over segments |
| C42 | entity names to and from JSON | round trip |
| C44–C46 | textual forms of digests, infos and resource names | round trip, rejection |
| C47 | `createAction` identifier | as C09 |
| C48, C49 | `DFAMinimizer`, repository key graph, cached keys | invariant of marking (marked = distinguishable), graph is a copy of what is reachable, two traversals in lock step |
| C51 | `FindMissingBlobs`, `InitRequest` | induction over requests |
| C52 | `WithRetry`, `GetSleepTimeSeconds` on 32-bit words | witness for violation, partial theorem |
| C53 | `OperationCache` | invariant over histories |
| C54 | `ParseResponse`/`SaveObjectInfo` along the DAG | induction on dependency order |
| C55, C56, C69 | all kinds of targets (`CreateTargetMap`, built-in rules, `withDependencies`, export) with abstract evaluation | induction on the depth of analysis |
| C57 | compactification tasks | witness for the violation (race); sequential success |
| C58 | `add_dir_for` | as C37; witness for the violation |
| C59 | termination | induction on the nesting of functions, then on the size of the expression |
| C60, C61 | `to_subdir`, `from_subdir` | staging loop invariant (what is placed so far), path lemmas of C39 |
| C62 | `ArtifactDescription` to and from JSON, `ComputeId` | round trip; injectivity of the JSON printer |
| C63 | `json_encode`, `Expression::ToJson/FromJson` | structural induction; injectivity of the JSON printer |
| C64 | `SerializeExpression`, `DeserializeExpression`, `TargetResult` | invariant of the node table; induction on size |
| C65 | `ActionDescription`, `Tree`, `TreeOverlay` to and from JSON | each key read back on its own |
| C66 | `TargetNode::operator==` | value nodes via C09; witness for the violation |
| C67 | `BatchUpdateBlobs`, `DoUploadBlobs`, `UploadBlobs` against any server | induction over requests and over retries |
| C70 | `InstallRuleWithDeps` on ordered maps | invariants of the three loops; C37, C39 for places; violations V36-V38 by witness |
| C71 | `ACTION` and `GenericRuleWithDeps` as functions of the values of their arguments | specification of the action as a relation between arguments and action; C37, C39, C47, C58; violation V39 by witness |
| C72 | the functions of rules (`FIELD`, `DEP_*`, `ACTION`, `BLOB`, `SYMLINK`, `TREE`, overlays, nodes, `RESULT`) as functions provided to the evaluator | logical predicate on values preserved by every construct of the language and every function (`Expr/Built.lean`), for all fuel; availability as inductive predicate; induction over the sequence of analysed targets |
| C73 | all kinds of targets (`Analyse/BuiltinTargets.lean`, `Analyse/TaintProps.lean`), taint, action graph, traversal | inductive predicate of lists of analysed targets; one induction with a parameter for the actions admitted; the graph from `Graph.add` (C22), marks from C54; all examples joined to one sequence of targets and a traversal |
| C74 | `TreeRuleWithDeps`, `BlobGenRuleWithDeps`, `TreeTarget`, `GlobResult`, paths of references to sources | merging of stages by induction over the dependencies, acceptance reduced to C38; mutual induction over the directory of the workspace; concrete violations |
| C75 | `ComputeKey`, `Describe`, `FromTarget`, `ToArtifacts`, `ToImplied`, `CreateTargetCacheWriterMap` | injectivity of JSON texts; C64 for reading back; transition system of the writers on top of the asynchronous map, invariant using C26; concrete violations |
| C76 | `CreateActionDigestFromCommandLine`, `CreateCommandBundle`, `CreateActionBundle`, `CreateActionDigest`, `MergeProperties`, `GetAlternativeEndpoint`, `ExecuteAction` (creation of the action) | wire format with decoder, round trips of the messages, C44; equal keys give equal requests or an explicit collision; C21 for histories; C43 for places |
| C77 | `CreateDirectoryDigestFromGitTree`, `CreateGitTreeDigestFromDirectory`, `ReadRehashedDigest`, `StoreRehashedDigest`, `RehashDigestImpl` | both views as partial functions from paths; invariant on known associations, quantified over all larger stores; reference functions without state for independence |
| C78 | `LocalResponse::Populate`, `MakeTree`, `IsDirectoryValid`, `ToBazelActionResult`, `ToIExecutionAction`, `BazelResponse::Populate`, `ReadOrdered` | artifacts specified as relation between result, path and info; termination of the walk over directories; invariant on the CAS while Tree messages are added |
| C79 | `ArtifactsRoot`, `PartialTree` | content as partial function from paths; zipper of directories above the current one; entries with a common directory are next to each other in the order of keys; canonical trees are determined by their content |
| C80 | `RetrieveOutputs`, `RetrieveToPaths`, `StageTo`, `GitApi::RetrieveToPaths`, `CreateTreeFromDirectory` | two relations between file systems: `Soft` (what may change at all) and `Exact` (what has changed after success), closed under composition; path strings resolved to lists of names; canonical trees are determined by their content |
| C81 | `TreeStructureUtils::Compute`, `ImportToGit`, `ComputeStructureLocally`, `TreeStructureCache` | invariant: the storage is closed and each entry of each generation of the cache is a tree with its structure, in canonical form, whether or not both are still stored; canonical trees are determined by their content; import reduced to C80 |
| C82 | `BazelApi::RetrieveToCas`, `ParallelRetrieveToCas`, `RetrieveToCasSplitted`, `ReadDirectTreeEntries` | relational model, all answers of the other sides admitted, tasks as interleaved steps; invariant of tasks: what will be stored comes with everything it refers to, and what has been promised is stored at the end; ranks for the existence of a successful execution |
| C83 | `IncrementalReader`, `ByteStreamClient::Read`, `Write`, `BytestreamServiceImpl::Read`, `Write`, `DumpBlob` | small-step relation of the client over an abstract server; invariant: the iterator is at the position, so each request has the data at its offset, and what is committed is a prefix of the content; measure for the end of runs |
| C84 | `CASServiceImpl`, `CASContentValidator::Add`, `CheckTreeInvariant` | operations of the interleaved system of the storage (C16), without any obligation of the caller; the check of the tree uplinks all entries to the youngest generation before the tree is stored, so its precondition is established |
| C85 | `FileRoot`, `GitTree`, `GitTreeEntry`, `IsGitTreeValid`, `JsonFileMap`, `SourceTargetMap`, `DirectoryEntriesMap`, `TreeTarget` | functions with the remembered state (flag each tree was read with, markers); invariant on the state over all sequences of questions; answers compared to the plain content |
| C86 | `ExecutorImpl`: `VerifyOrUploadArtifact`, `CreateRootDigest`, `ExecuteAction`, `ExecuteTreeOverlayAction`, `ParseResponse`, `SaveObjectInfo` | functions on object infos and storage, run along the log of the traverser of C22 with the uploads of C36; invariant over all logs; determinism by induction over the graph |
| C87 | `CreateContentGitMap`, `ResolveContentTree`, `EnsureRootAsAbsent`, `HandleKnownInOlderGeneration`, `CreateContentCASMap`, `FetchFromNetwork` | programs of atomic steps on the shared storage; rely/guarantee: an invariant of the storage kept by every step, and assertions stable under the steps of all others; pools of tasks with interference and garbage collection |
| C88 | `CreateDistdirGitMap`, `CreateForeignFileGitMap`, `DistdirCheckout` | the programs of C87; the tree computed from hashes and the one imported have the same identifier |
| C89 | the programs of C87 | running them from any state of the invariant, with all questions asked recorded |
| C90 | `CreateCommitGitMap`, `EnsureCommit`, `TakeCommitFromOlderGeneration`, `TagAndSetRoot`, `NetworkFetchAndSetPresentRoot`, `WriteIdFileAndSetWSRoot` | the programs and invariants of C87, with commits and a repository of the user's own; for absence and tags the same judgement with different rules |
| C91 | the programs of C90 | running them from any state of the invariant, with all questions asked recorded |
| C92 | `CreateTreeIdGitMap`, `CreateGitTreeFetchMap`, `MoveCASTreeToGit`, `TakeTreeFromOlderGeneration`, `UploadToServeAndSetRoot` | the programs and invariants of C87 |
| C93 | the programs of C92 | running them from any state of the invariant, with all questions asked recorded |
| C94 | `CreateFilePathGitMap`, `ResolveFilePathTree`, `CheckServeAndSetRoot` | the programs and invariants of C87; for the repository of the user a syntactic judgement on programs (`Quiet`) |
| C95 | `MultiRepoSetup`, `ReachableRepositories`, `ResolveRepo`, `ParsePrecomputedRoot`, `CreateReposToSetupMap` | relational description of what a configuration says (`Describes`, `Needed`, `RootIs`), without the functions of the model; both directions |
| C96 | `DetermineRoots`, `FileRoot::ParseRoot`, `PrecomputedRoot::Parse`, after C95 | composition of the two programs; what a description means (`Means`) is stated without either |
| C97 | `ReadConfiguration` | exact effect on the fields; the composition with C95 and C96 for the violations |
| C98 | `ReadLocationObject`, `MergeMRRC`, `ReadJustMRRC`, `just-mr`'s `main` up to the choice of the configuration | field-by-field characterisation of the merge; induction over the list of rc files |
| C99 | `CallJust` of just-mr, option tables of `just` | the argument list is a concatenation of segments; reading it back with the table of the subcommand |
| C100 | `GetServingRepository`, `DetermineRoots` | the graph stored by the client (C49) is read back; induction over its construction for reachability and closedness |
| C101 | `ParsePort`, `ParseAddress`, `ParseDispatch`, `CreateRemoteExecutionConfig`, `ServeTarget` up to the configured target, `Configuration::Prune` | round trips from the client's texts; termination of the process is an outcome of its own |
| C102 | `ServeTarget` from the look-up to the reply, `WriteTargetCacheEntries`, `ExportRule`, `TargetClient::ServeTarget` | invariants of the target caches of all shards; induction over the analysis with comparison to building without caches; induction over the sequence of requests |
| C103 | `ServeTargetVariables`, `GetBlobContent`, `ReadStringList`, `WithFlexibleVariables` | case analysis of the targets file on both sides; uniqueness of what is built |
| C104 | `ServeCommitTree`, `ServeArchiveTree`, `ServeDistdirTree`, `ServeContent`, `ServeTree`, `CheckRootTree`, `GetRemoteTree`, and the client | rely-guarantee validity of each request in the framework of C87 (same storage, rules extended by what is put to the remote); runs of one request for what is at hand; V91 to V94 |
| C105 | `Rebuilder` on the model of the executor (C86) | a rebuild is a build in which results that are not accepted are withheld (`as_build`), so that C86 applies with results that are confirmed by the cache or reported; induction over the graph for the agreement; V95 |
| C106 | functions reading JSON, recursion over imports with a depth that is proved not to matter | accepted iff stated on the JSON (`create_iff` via `std::set_intersection` on sorted lists); evaluation of loaded functions equals evaluation with names (induction on the fuel, as functions); loading iff imports accessible; V96 |
| C107 | functions on strings; the parsers of libcurl and libgit2 are parameters | lists of labels (`splitAt`/`joinWith`), `std::getline` as splitting without empty last part; the `std::map` with its comparison as sorted insertion; the best match as invariant; V97, V98, V99 |
| C108 | interleaving steps of tasks; sections that hold the lock shared are single steps, asking serve and setting a root have begin and end | invariant (the configuration is the original one with finished roots replaced; dependencies of begun roots are finished); accessibility in the dependency relation for uniqueness and cycles; a rank for termination; V100, V101, V102 |
| C109 | a file system with links and the path resolution of the operating system, compared with the lexical one of the code | induction on the depth of import with an invariant on the shared map of known paths; V103 to V108 |
| C110 | parsing of identifiers as a function on texts, with undefined behavior as an outcome; archive as a list of members | induction on the depth of the tree for installed files (reusing C80) and for members, with order; V109 to V114 |
| C111 | answers of the endpoint as functions of the number of the call; outcome and list of calls | case distinction on the first call that does not fail in passing (using C52), equivalence with an inductive specification; V115 |
| C112 | JSON values, assignment to nested fields, remote repositories as parameters | induction on places in nested objects; success as an equivalence; V116 to V120 |
| C113 | lists of URLs, buckets by host name, answers as functions of what was asked before | buckets are filters of the list of mirrors; position in the list of host names is monotone; induction on the locations left; V121 to V124 |
| C114 | paths as lists of names, roots as functions, configurations as association lists | closest prefix by induction on the reversed path; relative paths below and outside of the workspace; last layer by induction on definitions; V125 |
| C115 | configuration as JSON, file system as a function from places to content, order of archives as any permutation | items of the repositories from `MrConfig.collect`; first of each content by induction on the list; last write wins by induction; V126-V131 |
| C116 | actions as records, analysis results as lists of actions | positions by splitting the list; `atoi` of written numbers from `Util.Decimal`; keys of what is provided pairwise different; V132-V134 |
| C117 | expressions of `Expr.Val`, dump as list of definitions | extension of a closed map by mutual induction on expressions, with what is still to be visited kept apart; reachability by induction; none found |
| C118 | texts as lists of bytes, `dump` as in the other identifiers | removal of white space outside of strings, by mutual induction on values; count of line breaks; monotonicity of truncation and its equality with the full text for large depths give termination and maximality; V135 |
| C119 | the JSON value, with `operator[]` and `push_back` that may throw | invariant on the shape of the JSON (nested objects of fixed depth below each marker), list at each path after each target; none found |
| C120 | validity of sets of files, independent of the order in which they are looked at; admission of clients | case analysis on the five files; V136, V137, V138 |

## Violations found

Each is proved as a theorem named `Cxx_violation…` with a concrete reachable witness.

* **V2 (C17)** `UplinkLargeBlob` searches the generations only down to the youngest one, so looking up a
  large-object entry itself (`GetEntryPath`, used by `Split` and the tree-invariant check) never finds an
  entry that is only in an older generation.  Lookups of blobs do promote entries.  (`C17_violation`)
* **V7 (C14)** The uplinker of action-cache and target-cache entries reads the metadata blob without
  splicing.  If compactification has split that blob, the entry is not promoted and is lost one rotation
  early.  (`C14_action_violation`)
* **V8 (C18)** `SplitLarge` ignores a failure to write the large-object entry and removes the object.
  (`C18_violation_write_fault`; needs a failing write)
* **V9 (C16)** Uplinking a tree ignores that uplinking the large-object entry of one of its entries has
  failed (e.g. a part could not be copied).  (`C16_violation_write_fault`; needs a failing write)
* **V10 (C57)** Two `SplitLarge` tasks for a file and an executable with the same content race: one removes
  the file between the other's existence check and opening it, so compactification reports failure.
  (`C57_violation_race`)
* **V12 (C40)** `PathIsNonUpwards("")` dereferences the end iterator of the empty path.  The default working
  directory of every `ACTION` is the empty string.  (`C40_violation`)
* **V13 (C43)** The working directory of an action is only checked to be non-upwards but not normalised.
  With `cwd` `x/../y`, `lexically_relative` cancels the `x` of the output `x/out` against that of the
  working directory, so that the file `y/out` is collected instead of `x/out`.  (`C43_violation`)
* **V3 (C41)** A relative reference `["./", m, t]` leading exactly one level above the root (e.g. `../..`
  from module `a`) is taken to be the root module, while references leading further up, or to a module
  beside the root, are rejected.  (`C41_violation`)
* **V5 (C38)** `ExprToTree` (the `TREE` built-in) looks for conflicts before normalising the keys: with the
  keys `./a` and `a` one artifact is dropped silently, `a//b/c` inside `a/b` is not noticed, and the key
  `""` dereferences the end iterator of an empty path.  (`C38_violation`)
* **V14 (C42)** The printed form of a `FILE`/`TREE`/`GLOB`/`SYMLINK` reference has five elements and is not
  accepted by `ParseEntityName`; the repository in the printed form is the global one, but is read as a
  local binding.  (`C42_violation_reference`, `C42_violation_context`)
* **V15 (C34)** `DirectoryTree::AddArtifact` keeps a trailing slash: `a/` is stored under the empty name in
  the directory `a`, so that `a/` and `a/b` do not conflict.  Reachable by V16 with the working directory
  `a/`.  (`C34_violation`)
* **V16 (C58)** `add_dir_for` compares a working directory that is not normalised with the normalised stage,
  so that `./a` is added next to the file `a`.  (`C58_violation`)
* **V1 (C10)** Expanding a quasi-quoted list expects the expansion of every entry to be a list of entries to
  be spliced in, but for an entry that is a map (other than an unquotation) the expanded map itself is
  returned.  So `` `[{"a":"x"}] `` is an error although the list is a literal.  (`C10_violation`)
* **V18 (C61)** `from_subdir` compares paths that are not normalised: with sub-directory `./foo` the entry
  `foo/x` is dropped, with `foo` the entry `a/../foo/x` is dropped, and the absolute entry `/x`, not being
  inside of `foo`, is kept as `.`.  (`C61_violation`)
* **V11 (C09)** The hash of a value does not tell a node, result, or artifact from a list or map looking like
  its description (e.g. a result providing an artifact and the same result providing the map
  `{"type": "KNOWN", …}`), and numbers that are not finite are all rendered as `null`.
  Hence in the target cache, one of two
  such values provided by a target is replaced by the other one.  (`C09_violation`,
  `C09_violation_infinite`, `C64_violation`)
* **V19 (C44, C45)** The wire form of a digest is accepted without a tag, with any two characters as tag, and
  with a negative size; the textual form of an object info is accepted with garbage after the size, with a
  negative size, an unknown or missing type, without the closing bracket, and with trailing text.
  (`C44_violation`, `C45_violation`)
* **V17 (C66)** Comparing abstract nodes compares the target fields of one with the string fields of the
  other.  (`C66_violation`)
* **V4 (C33, C30, C31)** Reading a tree for overlays gives all names of one object the type of the first of
  them.  So an executable with the same content as a file before it becomes a file by overlaying another
  tree, and trees that agree wherever both have something are reported to conflict.
  (`C33_violation`, `C30_violation`, `C31_violation`)
* **V6 (C52)** The first waiting time is not bounded by the maximum (an initial backoff above the maximum is used
  as is), the computation of the backoff wraps around to zero for maxima above 2^31, the waiting time (backoff plus
  jitter) wraps around for backoffs from 2^30 on, and with 2^32-1 attempts the loop never ends.
  (`C52_violation_first`, `C52_violation_overflow`, `C52_violation_jitter`, `C52_violation_attempts`)
* **V20 (C53)** Of the values accepted for the threshold of logged operations (up to 63), the ones from 32 on lead to
  a shift by more than the width of the type, which is undefined.  (`C53_violation_threshold`)
* **V21 (C36)** With the compatible protocol, directories are not uploaded after the directories in them: one that is
  too large for the upload container is uploaded first.  C36 is hence stated for the native protocol.
  (`C36_violation_compatible`)
* **V22 (C51)** If there is an exception in `FindMissingBlobs` (such as missing memory), everything not yet asked is
  taken to be available.  (`C51_violation_exception`)
* **V23 (C49)** `SetInfo` resets the cached key of the changed repository only, not those of the repositories that
  refer to it: a key requested before stays what it was (`C49_violation_stale`). The tool itself requests a key only
  after all computed roots the repository depends on are set, so this concerns the interface only.

* **V24 (C68)** Symbolic links as outputs: `ActionResultContainsExpectedOutputs` (`utils/outputscheck.hpp`) looks at `output_files`,
  `output_directories` (and symlinks to files or directories) only. An action with `output_paths` whose output is a
  symbolic link has it in `output_symlinks` only, so its cached result is never accepted and it is run again each time.
  An output directory that is a symbolic link is listed among the files and not found among the directories.
* **V25 (C20)** `LocalAC::LocalUplinkEntry` (`local_ac.tpp:80-119`) keeps the objects in `output_files`,
  `output_file_symlinks`, `output_directory_symlinks` and `output_directories`, but not those in `output_symlinks`,
  which is where actions with `output_paths` have their symbolic links.

* **V26 (C25)** `AsyncMapNode::SetAndQueueAwaitingTasks` (`async_map_node.hpp:42-57`) does not test whether there is a
  value already: a second call of a setter replaces it, after consumers may have read the first one, and without
  synchronisation with them. All value creators in the repository call the setter once.
* **V27 (C26)** `QueueTaskWhenAllReady` (`async_map_consumer.hpp:248-282`) registers a consumer only with its first key
  that is not ready. If a later key fails, the failure handler is called only once all earlier keys are ready; if one of
  them never gets ready (say, on a cycle), it is not called at all, although nothing is going on any more.
* **V28 (C26)** `AsyncMapNode::IsReady` (`async_map_node.hpp:168-170`) reads the member `std::optional value_` without
  lock, and it is not atomic, while `SetAndQueueAwaitingTasks` writes it under the lock: a data race
  (`C26_race`). The model takes the test as atomic.
* **V29 (C28)** After `TaskSystem::Shutdown`, `Finish` (`task_system.cpp`) may return while tasks are still running.

* **V30 (C56)** An export target that is not eligible for caching (its repository is not content-fixed) reports no implied export
  targets at all (`export.cpp:95-102`), so those beneath it are lost for all targets depending on it. `C56_violation_ineligible`;
  partial theorem `C56_implied_partial` (paths not going through such targets).
* **V31 (C69)** `GenericRule` (`built_in_rules.cpp:1546-1556`) uses the value of `deps` without testing whether evaluation
  succeeded; a `generic` target whose `deps` fail to evaluate dereferences a null pointer. `C69_violation_generic`; partial theorem
  `C69_defined_partial`.

* **V32 (C35)** Partial resolution of an upwards link whose target is itself a non-upwards link puts the content of that other link in
  its place (`resolve_symlinks_map.cpp:230-303`): with `s/l -> ../x` and `x -> y`, `s/l` becomes a link to `y`, now meaning
  `s/y`. `C35_violation_moved`.
* **V33 (C35)** A link that leads through a link to the directory it is in, such as `d/l -> ../s/f` with `s -> d`, is no cycle for an
  operating system, but is reported as one: the target is looked up in the resolved directory `d`, which waits for `d/l`
  (`resolve_symlinks_map.cpp:327-398`). `C35_violation_own`.
* **V34 (C35)** The content of a link is normalised lexically before links in it are followed (`resolve_symlinks_map.cpp:288`):
  `l -> d/../x` is taken as `x`, also if `d` is a link to a directory elsewhere. `C35_violation_lexical`; the theorems with
  `_partial` assume that contents go up only in front.
* **V35 (C35)** If source and target repository differ, a directory changed by resolution and reached through a link to a directory
  above is looked up in the source repository (`resolve_symlinks_map.cpp:122-139`), where it is not; resolution fails.
  `C35_violation_elsewhere`.
* **V36 (C70)** According to `doc/concepts/built-in-rules.md` (65-66) the `files` of an `install` target overlay the runfiles of the
  `deps`, "and conflicts are ignored". The code reports an error for every file at the path of such a runfile, even if
  both are the same artifact. `C70_violation_overlay`.
* **V37 (C70)** The keys of `files` are not normalised, and `tree_conflict` only looks at their first element: `a/../../x` is accepted,
  and `just install` writes it to the parent of the output directory. `C70_violation_outside`.
* **V38 (C70)** For the same reason `./x` and `x` with different artifacts are accepted, as are `a//b/c` and `a/b`; of a target with such a
  stage one artifact is lost silently when it is put below a directory by `dirs`. `C70_violation_two`.

* **V39 (C71)** `ACTION` does not check where outputs are (target_map.cpp:605-645): `../x` and `/tmp/x` are accepted, while inputs and
  the working directory are checked. In local execution (local_action.cpp:370-400, 405-560) the paths are appended to that of the action root; so
  directories are created outside of it, and files from outside of it are taken as outputs. `generic` targets are checked.
* **V40 (C74)** names of `file_gen`, `symlink`, `tree` and overlay targets are not checked. built_in_rules.cpp:243-308, 652-672. With the name `../x` or `/x`,
  `just install` writes outside of the output directory (`output_dir / rel_path`, graph_traverser.cpp:513-523). Names that are not in normal form
  are taken as keys of the stage, where all checks for conflicts expect normal forms: a `tree` of files named `./x` and `x` silently contains only one of them
  (`C74_violation_outside`, `C74_violation_lost`).
* **V41 (C74)** `tree` targets without name cannot be depended on. The default name is empty (built_in_rules.cpp:652-653). A `tree`, `install` (field `deps`) or `generic`
  target depending on such a target runs `tree_conflict`, where `*p.begin()` is evaluated for the empty path (utils.cpp:146), undefined behaviour
  (`C74_violation_unnamed`).
* **V42 (C74)** references to trees are not confined. `["FILE", null, "../x"]` is rejected with "Source file reference outside current module"
  (source_map.cpp:71-79). `["TREE", null, "../../x"]` and `["TREE", null, "/x"]` are not (target_map.cpp:1722-1724); for a workspace in the file system, the directory
  read is `fs_root / module / name`, outside of the workspace. For a workspace given by a git tree such a path does not exist, which gives the empty tree.
  Also, `["FILE", null, ""]` evaluates `*name.begin()` of an empty path (`C74_violation_tree_reference`, `C74_violation_empty_name`).
* **V43 (C75)** keys of the target cache are computed from JSON texts of configurations (target_cache.tpp:55-59), in which a target name looks like a list of
  strings and a number that is not finite like `null`. Both can get into a configuration: a configuration transition can use `FIELD` of a target field, which gives
  names, and `+` and `*` can overflow. Then different configurations share a cache entry (`C75_violation_key`, `C75_violation_infinite`).
* **V44 (C77)** the message of an empty directory is the empty string, so an empty directory and an empty file have the same SHA256 digest. `CreateGitTreeDigestFromDirectory`
  finds known associations by hash only and handles directories before files (bazel_msg_factory.cpp:567-728): in a directory with an empty directory and an empty file, the file is entered with the id of
  the empty tree; `RehashDigestImpl` even returns type tree for the file. Computed roots and trees downloaded from a serve endpoint in compatible mode are affected.
* **V45 (C77)** `RehashDigestImpl` returns the type stored with a known association instead of the one asked for (rehash_utils.cpp:188-196). If the same content occurs as file and as executable,
  both get the type that was seen first; `ArtifactsRoot` uses this type for the entry of the tree (artifacts_root.cpp:181-191), so the executable bit is lost, or gained, in computed roots in compatible mode.
* **V46 (C77)** `ReadRehashedDigest` links a known association into the youngest generation but does not look at the content in the target CAS (rehash_utils.cpp:42-96). An object rehashed once, and asked for
  again between two runs of garbage collection without the content being read, is reported as rehashed though its content has been collected; the content is not written again although the source has it,
  and as every request renews the association, this stays so.
* **V47 (C78)** in compatible mode, `Execute` of the execution service stores the result sent to the client, in which output directories are given by digests of `Tree` messages, in the action cache
  (execution_server.cpp:312-324), while local actions store, and expect, digests of `Directory` messages. Both use the same action cache with the same keys: a local build on the build root of a running `just execute`,
  with an action executed for a client before, takes the `Tree` message for a `Directory`. For a directory without subdirectories it can be parsed as one, giving a wrong directory with a file of a nonsensical name;
  links leaving the directory are not seen. With subdirectories, the action fails. Conversely, a client asking for an entry written by a local build takes a `Directory` for a `Tree`.
* **V48 (C78)** `ReadOrdered` leaves out blobs that are missing (bazel_network_reader.cpp:210-231), and `BazelResponse::Populate` assigns the blobs to the output directories by position without looking at
  their number (bazel_response.cpp:261-305). If the `Tree` message of an output directory is missing, it gets the content of the next one.
* **V49 (C79)** a stage may have a tree at `.` as its only entry (utils.cpp:138); building the target and installing it to a directory that is then imported gives the tree itself.
  `ArtifactsRoot` adds an entry with name `.` to an empty tree instead (artifacts_root.cpp:97-122, as `filename` of `.` is `.`). The root obtained from the target cache or from a serve endpoint therefore differs
  from the one computed by building, and no file is found in it.
* **V50 (C80)** an artifact that is a tree with an empty directory in it (the empty tree is a valid tree, and actions may have one in an output directory) is installed without this directory, as only files are staged
  (tree_reader.hpp:111-137, git_api.cpp:65-82). A root computed by building the target, installing to a temporary directory, and importing that to git therefore differs from the one computed from the target cache.
* **V51 (C80)** names of entries of trees in the CAS are not checked when reading them (local_cas_reader.cpp:100-131, git_tree.cpp) nor when storing them (which only requires that the entries are present). Installing a tree with an entry `..` writes to
  `<output>/..`, outside of the output directory, and replaces files there; such a tree can be the output of a remote action.
* **V52 (C81)** the structure of a tree has each symbolic link replaced by one with the empty blob as target (tree_structure_utils.cpp:94-97). To import it to git it is staged to a temporary directory, where non-upwards links are required:
  `PathIsNonUpwards` dereferences the begin iterator of the empty path (path.hpp:36-43), which is undefined behaviour; even if that is survived, creating a link with empty target fails, so trees with symbolic links have no structure.
* **V53 (C81)** empty directories below the root are lost by staging (V50), so the imported tree is not the structure. The first call ignores the result of the import and reports the structure, which is then not in the git repository
  (tree_structure_utils.cpp:229-300); the second finds the structure in the cache and reports the imported tree, which is another one.
* **V54 (C82)** `ReadDirectTreeEntries` (tree_reader.hpp:48-77) reports failure only for trees with invalid entries; a tree that could not be read has the empty list of entries. `RetrieveToCas` and `ParallelRetrieveToCas` take that list for the prerequisites of
  the tree. If the failure was transient, the tree itself is fetched and stored without its entries, and success is reported. The target has a dangling tree, which later requests find there and do not retrieve again.
* **V55 (C82)** `BatchReadBlobs` (bazel_cas_client.cpp:170-188) takes the digest of the data that was received, and does not compare it with the digest that was asked for, as `ByteStreamClient::Read` does. `RetrieveToCas` only compares the number of blobs
  (bazel_api.cpp:83-89), so wrong data is stored in the target, and success is reported although the requested object is not there.
* **V56 (C83)** if a write to the stream fails, the client asks for the committed size and continues from there, but in the same stream (bytestream_client.hpp:196-217), which is not usable any more. If the server ended the stream because it already has the blob,
  it answers with the full size. Then for a blob in a file the client sends an empty chunk, which fails again, and so on for ever; for a blob in memory, reading after the end is an error (`at` throws, incremental_reader.cpp:157), and failure is reported.
* **V57 (C83)** the offset of a request is converted to `int` (bytestream_client.hpp:193): from 2 GiB on it is wrong. Servers that check offsets reject the request, so longer blobs cannot be uploaded. The server of this tool ignores offsets.
* **V58 (C83)** according to bytestream.proto a server may send empty responses to keep a request alive. `DumpBlob` (bazel_network_reader.cpp:156-172) takes an empty response for the end of the stream and reports success; digests are not compared, so the
  output is silently truncated. `ByteStreamClient::Read` also stops there, but then fails, as the digest differs.
* **V59 (C85)** `LookupEntryPyPath` (git_tree.cpp:49) does not pass `ignore_special` to its recursive call, so trees two or more levels below the root are read as if nothing was to be ignored, and the result is cached in the entry. In a git root ignoring special entries, a file next to an upwards link (or submodule) two levels below is not found, and a reference to a source tree includes or excludes symbolic links depending on which source file was asked for before. doc/concepts/symlinks.md:84-96 promises the effective tree to be a function of the git tree of the root, and target-level caching relies on that. `C85_violated_order`, `C85_violated_deep`.
* **V60 (C85)** A path through a symbolic link to a directory (`d -> e`, `d/TARGETS`) is found in a root in the file system, where the operating system follows the link, but not in a git root with the same content. `C85_violated_link`.
- **V61 (C86).** If an action is dispatched to another endpoint and its artifacts can not be retrieved from there (executor.hpp:282-286), this is only a warning: the build goes on, actions consuming the outputs are sent with incomplete directories, tree actions store trees whose objects are missing, and the build ends successfully although its result can not be fetched. `C86_violated_dispatch`.
- **V62 (C87).** If `subdir` of an archive names a file, the identifier of the blob is reported as git tree (git_repo.cpp:1062-1141 does not look at the type of the entry, content_git_map.cpp:310-328): just-mr succeeds with a root that can not be opened. `C87_violation_file`.
- **V63 (C88).** A distdir for archives whose distfiles have the same name (e.g. both fetched from `.../archive.tar.gz`) contains only the last of them: repos_to_setup_map.cpp:529-540 uses `insert_or_assign` on the name, without an error. `C88_violation_lost`.
- **V64 (C88).** For an absent foreign file the root is reported even if the serve endpoint answered that it has neither the tree nor the content (foreign_file_git_map.cpp:163-212: only a fatal error is checked for), unlike for archives and distdirs, which are uploaded or rejected. `C88_violation_unknown`.
- **V65 (C77).** After an archive was taken from a remote with the compatible protocol, `StoreRehashedDigest` is called with the native digest twice (content_cas_map.cpp:321-326: `native_digest` and the digest `native_cas.StoreBlob` returned) instead of with the digest on the remote. Later lookups of the association (rehash_utils.cpp:36-97) read a digest of the wrong length and fail, so that the archive can not be handed over to the remote any more. `C77_violation_recorded`.
- **V66 (C90).** A commit found in an older generation of the git cache is always made a present root, also if the root was to be absent (commit_git_map.cpp:636-658, 279-349: `TakeCommitFromOlderGeneration` does not look at `absent`), so that a build with serve endpoint uploads or analyses locally what should only be there; the same description gives an absent root if the commit is in the youngest generation. `C90_violation_present`.
- **V67 (C90).** With a checkout location (or a local directory as url), a commit found in an older generation is fetched into the user's checkout and tagged there (commit_git_map.cpp:279-349, `TagAndSetRoot` with `repo_root`), while on the way by the network tagging is deliberately restricted to the git cache (482-492). `C90_violation_tagged`.
- **V68 (C90).** That the tree of a commit is in the git cache is remembered without keeping the tree by a tag, if it was already there (commit_git_map.cpp:787-801); after git removes objects that are not kept, the root is still reported as present, with nothing there (612-628; for subdirectory `.` the tree is not even looked at, git_repo.cpp:1062-1141). The comment at 565-567 says that the tree must be there. `C90_violation_gone`.
- **V69 (C91).** What is remembered about the tree of a commit is only looked up in the youngest generation (commit_git_map.cpp:563-635; a TODO at 664 asks for it): after a rotation, a root set up by way of the serve endpoint needs the serve endpoint or the network again, although the tree is in an older generation and kept there; for archives (C89) the older generations are looked at. `C91_violation_forgotten`.
- **V70 (C92).** The directory obtained by way of the serve endpoint is imported to the git cache without checking that the resulting tree is the one wanted (git_tree_fetch_map.cpp:445-473, 70-140; the result of the import is only checked for success), and the root is reported as present with the hash asked for; the digest to fetch is whatever the serve endpoint answers. For commits the same check is done (commit_git_map.cpp:929-941). A wrong answer of the endpoint so gives a present root for which nothing is in the git cache. `C92_violation_serve`.
- **V71 (C92).** If the tree is found in the git cache, the root is reported without making sure that a tag keeps the tree (git_tree_fetch_map.cpp:379-394); with objects left by an interrupted import, git may later remove what a root refers to. All other ways set a tag. `C92_violation_gone`.
- **V72 (C93).** For an absent root, only the youngest git cache and the local CAS are looked at for the tree to hand over to the serve endpoint (tree_id_git_map.cpp:221-300): after a rotation of generations setting up the absent root fails, though the tree is in an older generation; the same tree as a present root is found there (git_tree_fetch_map.cpp:397-425). `C93_violation_absent`.
- **V73 (C95).** A repository described as an alias of itself, or a longer cycle of aliases, makes just-mr loop forever: `GetTargetRepoIfPrecomputed` follows names without remembering where it has been (setup_utils.cpp:61-81), and runs before `ResolveRepo`, which does report cycles as an error (utils.cpp:24-69). `C95_violation_alias_cycle`; with `--all`, where the first function is not used, it is an error (`C95_alias_cycle_all`).
- **V74 (C95).** With `--all`, a layer naming a repository that does not exist is no error; the layer is written as `null` (setup.cpp:488-490: `operator[]` of the JSON value inserts what is missing), and only `just` reports an error. `C95_violation_layer`.
- **V75 (C96).** A computed root is described by a target `[<module>, <name>]`; just-mr passes on `[<module>, <module>]` (parse_precomputed_root.cpp:91: `.target_name = target_module->String()`), such that another target is built, or none found. `C96_violation_computed`.
- **V76 (C96).** A main repository given as directory with pragma `special: ignore` is used without ignoring special entries: `just` takes the path of the root read and makes a new root of it (main.cpp:557-577). `C96_violation_ignore_special`.
- **V77 (C96).** `setup-env` is documented to leave out the workspace root of the main repository; also the layers of the main repository are left out, so that targets, rules and expressions are looked for in the workspace, and other repositories lose layers that name the main repository (setup.cpp:463-464, 484-491). `C96_violation_layers`.
- **V78 (C97).** The file given by `--absent` contains the names of the repositories to be considered absent. For a repository that is an alias only the name of the repository with the explicit description counts (setup_utils.cpp:297-306): an alias in the list is not absent, and an alias not in the list is, if the repository it stands for is. `C97_violation_alias`.
- **V79 (C97).** `--fetch-absent` is to make available all repositories, including those marked as absent. Computed roots and tree structures marked as absent stay absent (repos_to_setup_map.cpp:677-696 does not look at the option, other than lines 372, 556, 623). `C97_violation_fetch_absent`.
- **V80 (C97).** The pragma `absent` is documented for all workspace roots; for a directory without `to_git` it is ignored (repos_to_setup_map.cpp:355-407). `C97_violation_file`.
- **V81 (C98).** A location whose `root` is none of the known ones is not rejected, but taken relative to the working directory. `C98_violation_root`.
- **V82 (C98).** Directories given by `--distdir` are looked at after those of the rc file and after the default `~/.distfiles`; the manual page calls them the first place to look at. `C98_violation_distdir`.
- **V83 (C98).** A `distdirs` that is not a list is an error in a single rc file, but silently dropped as soon as a further rc file is merged. `C98_violation_masked`.
- **V84 (C99).** `just-mr version` and `just-mr do serve` with any log setting on the command line or in the rc file start just with `--log-limit` or `-f`, which these subcommands do not know: just ends with a usage error. `C99_violation_version`, `C99_violation_serve`.
- **V85 (C99).** The remote instance name given to just-mr is silently dropped if the remote execution address is given only to just. `C99_violation_instance`.
- **V88 (C101).** A target-cache key whose `effective_config` is not a map passes all checks (the check in the constructor of `Configuration` is only there in debug builds); when an export target with a flexible variable is analysed, an exception leaves a worker thread, which terminates the serve endpoint. `C101_violation_config`.
- **V89 (C101).** `ParsePort` is `noexcept` but handles only one of the two exceptions of `std::stoi`: an address with a port of more than ten digits, in the dispatch list of a request or in an argument like `-r`, terminates the serve endpoint or `just`. `C101_violation_port`.
- **V86 (C102).** The serve endpoint looks up and stores the requested target in the shard of the client, but its analysis reads the target cache of its storage, which is the shard for its own execution properties. A target in that shard but not in the one of the client is therefore found by the analysis, nothing is registered for caching, and the final look-up fails: the request ends with `INTERNAL`, each time it is asked, and this is fatal for the client's build. So after a client without properties has asked for a target, every client with properties fails for it (and for all targets depending on it). `C102_violation_shard`, `C102_violation_shard_reached`.
- **V87 (C102).** For the same reason, if an export target needed by the requested one is in both shards, the requested one is built from the result for the properties of the endpoint, and stored in the shard of the client: the client gets results for properties it did not ask for. `C102_violation_mixed`.
- **V90 (C102).** With `"target-cache write strategy": "disable"` the serve endpoint builds a requested target, does not store the entry, and ends with `INTERNAL`, which is fatal for the client; the manual page only says that no entries are added. `C102_violation_disabled`.
**V91** (C104_violation_cached): `ServeArchiveTree` reads `res.error()` also if the lookup of the content in the git cache was successful (source_tree.cpp:796-803); `expected::error` then follows a null pointer (expected.hpp:70-72). So the first request for an archive whose content is a blob in the git cache, but not in CAS, terminates the endpoint. (The content has been added to CAS before, so a later request works.)
**V92** (C104_violation_confused): the content of the request is used as file name without being checked (source_tree.cpp:720, fs_utils.cpp:68-75), and only its first forty characters are used by `git_oid_fromstr`. For a content `H1x/../H2`, where `H1` is the hash of a blob in a configured repository, the tree of `H1` is remembered for `H2` (`WriteTreeIDFile` creates the directory in between), and served for later requests for `H2`, from any client; just-mr takes the tree as the root for `H2`.
**V93** (C104_violation_name): if the content is no hash, but starts with one, and is not found, the remote is not asked, and then `*content_cas_path` is read though it has no value (source_tree.cpp:824-862).
**V94** (C104_violation_unreadable): in `ServeDistdirTree`, if a configured repository cannot be opened, the value of `has_tree` is read though it has none (source_tree.cpp:1208-1239). All files being in CAS, and the tree not in the git cache, the endpoint is terminated.
**V95** (C105_violation_exit): a rebuild compares the outputs, but not the exit code (executor.hpp:1191-1240). An action that may fail, is in the cache (so with exit code 0), and fails when executed again with the same outputs, is not reported; the artifacts of the rebuild are marked as failed, those of a build from the cache are not.
**V96** (C106_violation_anonymous): a rule with an anonymous field whose `target` is none of the fields of the rule (e.g., due to a typo) is accepted (rule_map.cpp:53-159, user_rule.hpp:75-191); by doc/concepts/anonymous-targets.md it has to be a member of the `target_fields`. At the targets of that rule the field silently is empty (target_map.cpp:1279-1300, 1400).
**V97** (C107_violation_user): a key with a user (`http.https://me@other.net.sslVerify`) makes every fetch from a URL without user with the same scheme fail, whatever its host (curl_url_handle.cpp:578-590: the absent user of the URL is taken as an error); in git the key does not match (`C107_error` says when errors are reported). The comment there reads: if key has user field, url must as well.
**V98** (C107_violation_empty): an empty value of any matching `http.<url>.proxy` entry disables the proxy, even if a better match has a proxy (git_config_settings.cpp:299-313); in git only the best match counts, and git_config_settings.hpp:54-56 promises the same checks as git. `C107_proxy_partial` is without such entries.
**V99** (C107_violation_value): an entry without value (`sslVerify`, which means true) has a null pointer as value in libgit2, from which a `std::string` is constructed (git_config_settings.cpp:168-169, 295), which is undefined (libstdc++ throws, so that the fetch fails).
**V100** (C108_violation_race): `InquireServe` reads the repositories, all of them when the key of a repository is computed, without holding the lock that protects the configuration (evaluate.cpp:269-271, inquire_serve.cpp:89-90), while another task may set a root: a data race, in which the map of duplicates returned by `AtomicValue::SetOnceAndGet` can be freed by `Reset` while it is searched. It needs two absent computed roots and a serve endpoint (`C108_defined_partial`).
**V101** (C108_violation_cached): an absent computed root found in the target-level cache, with its tree in the local git repository, is set to a root that is present, and the serve endpoint is not made to know the tree (evaluate.cpp:237-257), in contrast to the other two ways to obtain it. Absent repositories that depend on it can then not be analysed by the serve endpoint.
**V102** (C108_violation_unknown): an absent computed root of a repository that is not in the configuration dereferences a null pointer (inquire_serve.cpp:48); for present roots an error is reported.
**V103** (C109_files_changed_violation): adding a directory changes the permissions of its files to read-only, and their time of modification to the epoch. Files are stored as owner (add_to_cas.cpp:380), which is meant for files of its own. For a single file a copy is made.
**V104** (C109_shared_violation): the files in the CAS are hard links to the files of the user. If the user makes a file writable and edits it in place, the CAS has a wrong content under the old identifier.
**V105** (C109_other_device_violation, C109_not_owned_violation): a directory on a file system different from that of the CAS, or with files of another user, can not be added: there is no attempt to copy, in contrast to single files. In the former case the files have been changed already.
**V106** (C109_escape_violation): with links resolved within the tree only (`tree-all`, `tree-upwards`), files outside the directory can get in. Containment is checked lexically, but what is there is asked from the operating system; for a target that passes a further link these are different.
**V107** (C109_wrong_file_violation): for the same reason a link can be replaced by a file it does not lead to.
**V108** (C109_cycle_violation): `--follow-symlinks` does not end for a link that leads to itself (file_system_manager.hpp:555-572 has no limit).
**V109** (C110_bracket_violation): `[<hash>]` is rejected for each valid hash, although brackets, size, and type are all said to be optional: the closing bracket becomes a part of the hash (install_cas.cpp:75-96).
**V110** (C110_sub_violation): if the path given by `-P` does not exist in the tree, then the object at its longest existing part is installed, and the exit code is that of success. Also a trailing slash or a `.` is a segment that does not exist.
**V111** (C110_size_violation): a size of 2^63 or more leads to undefined behavior (`std::atol`).
**V112** (C110_remember_violation): with `--remember`, a failure to copy the object to the local CAS is logged only; the exit code is that of success.
**V113** (C110_archive_violation, C110_archive_left_violation): the results of writing to an archive are not looked at, so a full disk leads to an incomplete archive with success; if an object is missing, then a partial archive is left at the output path, where another file may have been before.
**V114** (C110_empty_violation): installing an empty tree creates no directory; and it succeeds, leaving all as it is, if the output path is a file, where the manual says there is an error.
**V115** (C111_violation_cached): a result in the action cache that is rejected by the client, as the action failed or an output is missing, can be what is reported nevertheless: the following call of `Execute` never sets `skip_cache_lookup` (api_bundle.cpp:38, 60), so the endpoint may answer with that same entry, and nothing checks it again in `BazelAction::Execute`. The action is not executed again, and the build fails each time.
**V116** (C112_violation_alias): a repository given as an alias of another one can not be updated: aliases are resolved when the description is read, but then the commit is set in the description itself, which is a text (update.cpp:270-276; the comment there says this always works).
**V117** (C112_violation_slash): a branch with a slash in its name, as `release/1`, is never found for URLs handled by libgit2: it is compared with the last component of the name of each reference (git_repo_remote.cpp:253).
**V118** (C112_violation_branch): for the same reason, the commit of another branch (`refs/heads/legacy/main` for `main`) is taken if it comes first in the list.
**V119** (C112_violation_env): two repositories with the same branch of the same URL are one key, but may have different `inherit env`; the first one named decides, so whether the second one can be updated depends on the order of the names.
**V120** (C112_violation_absent): with a file of absent repositories, which may come from the rc file, pragmas are added to the configuration that is printed; the manual says that it otherwise remains the same.
**V121** (C113_violation_empty): with the empty text in the list of preferred host names, URLs with host names that are not in the list are tried before URLs whose host name is further behind in the list, as the empty text is also the key of the list for everything else (mirrors.hpp:156-192).
**V122** (C113_violation_wrong): if a location answers with wrong content, for example an error page or a re-compressed archive, then fetching fails with a checksum mismatch, though one of the mirrors that would be asked next has the archive (content.hpp:78-84, content_cas_map.cpp:61-106). The documentation says that a fetch is only considered failed if the repository can not be fetched from any location.
**V123** (C113_violation_stale): the same for commits: a local mirror that has the branch, but not yet the commit, makes fetching fail, though the repository itself has the commit; it is not even asked (commit_git_map.cpp:419-475).
**V124** (C113_violation_path): the URL of a git repository given with `file://` or as a relative path is made an absolute path before the local mirrors are looked up (commit_git_map.cpp:1109-1113, 411-412), so those given for the URL as it is in the configuration are never used.
**V125** (C114_violation_directory): a directory with the name of target files makes its parent the current module, as `FindRoot` asks for the existence of an entry only (main.cpp:267-270, file_root.hpp:460-484), so that `just build` in that directory is an error, and a target given by name is searched there, instead of in the closest directory that has a target file.
**V126** (C115_violation_main): the field `"main"` of the configuration is not read by `just-mr fetch` (fetch.cpp:119-124, unlike setup.cpp:113-127), contrary to just-mr.1.md:273-276; the lexicographically first repository is taken instead, and the archives of the main repository are not fetched.
**V127** (C115_violation_layer): archives that are only the target, rule, or expression root of a repository are not fetched, as `to_include` instead of `to_setup` is used (fetch.cpp:163), though setting up that repository needs them.
**V128** (C115_violation_clash): two archives with the same file name are written one over the other, and success is reported (archive_fetch_map.cpp:85-90).
**V129** (C115_violation_twin): of two archives with the same content and different names only one is written, as archives are compared by content only (content_cas_map.hpp:49-51).
**V130** (C115_violation_outside): a `"distfile"` that is absolute or has `..` leads out of the distribution directory; the file there is replaced (archive_fetch_map.cpp:85-90).
**V131** (C115_violation_serve): if a serve endpoint can not be asked for its mode, the warning says that it is ignored, but then the empty `std::optional` is read (fetch.cpp:469-478, setup.cpp:278-291).
**V132** (C116_violation_garbage): a request that is neither an identifier nor a number, such as `#last`, the beginning of an identifier that starts with a letter, or the empty string, is taken for action #0, as `std::atoi` gives 0 (analyse.cpp:255, 289).
**V133** (C116_violation_rest): what follows a number is ignored: an identifier that is not in the action graph is not refused if it starts with a digit, but taken for the number it starts with.
**V134** (C116_violation_large): the behaviour of `std::atoi` is undefined for numbers of more than 32 bits, instead of the error that the action is out of range.
**V135** (C118_violation_long): `AbbreviateJson` begins with the truncation at depth 1 and returns it even if it is longer than the limit (json.hpp:206-215). A string, or an object with many or long keys, is thus shown in full or nearly so, although `--expression-log-limit` is documented to "truncate the entries in the enumeration of the active environment, as well as the expression to be evaluated, to the specified number of characters". The theorem has a string for each limit.
**V136** (C120_violation_any_client, C120_violation_mtls): `just execute` and `just serve` never request certificates of clients. The tutorials call what is obtained by --tls-ca-cert, --tls-server-cert, and --tls-server-key mTLS and speak of client access management, but `client_certificate_request` of the options of the server is left at its default, GRPC_SSL_DONT_REQUEST_CLIENT_CERTIFICATE, so every client that trusts the server is served, whatever certificate it has. (The default value is part of gRPC and trusted here.)
**V137** (C120_violation_empty): empty files for certificate and key of the client are accepted, and the client connects without a certificate; only the file of the authority is checked for this.
**V138** (C120_violation_no_ca): --tls-client-cert and --tls-client-key are accepted without --tls-ca-cert, although the manual page says that it must be given; the client then trusts the default roots of gRPC.

## Storage: what is modelled

Generations are maps from paths (`cas` file/exec/tree, `large` blob/tree, `ac`, `tc`) to contents.
All operations of the storage are programs (`Prog`) whose steps are single file-system operations
(read, write-by-rename, remove), so that they can be interleaved with other programs and interrupted at any
step.  Assumed: hashes are collision-free on the set `U` of contents occurring in the storage (`Env.OK`),
serialisers and parsers of metadata are inverse, references between trees and target-cache entries are not
cyclic (`Ranks`; with a hash this is a consequence of collision-freeness), writes by rename are atomic.
Not modelled: permissions, timestamps, ephemeral storage, the locking itself (the exclusive lock is
modelled by the rotation being a separate event), backend descriptions.

## Paths: what is modelled

Paths are lists of characters.  The lexical part of `std::filesystem::path` (iteration, `operator/`,
`lexically_normal`, `lexically_relative`, `parent_path`, `filename`) is transcribed from the standard and
libstdc++; it is part of the trusted base.  Locations are computed by following segments, ignoring symbolic
links.

## Names and JSON: what is modelled

JSON values are an inductive type, with an abstract set of numbers and any injective rendering of numbers
that consists of digit, sign, exponent and point characters.  `dump` is transcribed from nlohmann::json
(compact and indented); strings are valid UTF-8, i.e. lists of characters, and are not escaped beyond what
`ensure_ascii = false` requires.  Target names are modelled with their constructor (`normal_module_name`),
equality, order, `ToJson` and `ParseEntityName`; error messages are not modelled.

## Staging: what is modelled

`artifacts_tree`, `tree_conflict`, the check of stages in `target_map.cpp`, `ExprToTree` for maps of
artifacts, `add_dir_for`, and `DirectoryTree`.  Comparing `std::filesystem::path` values is comparing
their elements.  Artifacts are an arbitrary type with decidable equality.

## Expressions: what is modelled

`Expr/Val` are the values, `Expr/Model` the evaluator: all built-in constructs of `evaluator.cpp`, functions
with imports, constructs provided by the context (as arbitrary functions that evaluate some of their fields,
`Regular`).  Evaluation takes fuel; `Evals` is the outcome with enough fuel, and C59 shows that there is
always enough.  An environment is a function from variable names (justified by C04).  Numbers, their
arithmetic and rendering, and the hash of values are parameters.  All exceptions are one outcome; error
messages and their rendering are not modelled.  `Expr/Scope` gives the scoping rules independently of the
evaluator, as a table of constructs with their evaluated fields and bound variables.

## Digests, artifacts, identifiers: what is modelled

Strings are lists of bytes.  `ArtifactDigest` with its hash type, the wire form (`bazel_re::Digest`),
`ObjectInfo::ToString/FromString`, the ByteStream resource names (with `stoull` modelled by its leading
blanks, sign and digits; overflow of sizes is an error), `ArtifactDescription` with JSON form and identifier.
Value identifiers follow `Expression::ComputeHash`: the hash function `H` and the text of numbers are
parameters.  Theorems assume `NoCollision` of `H` only on the list of strings that are hashed when computing
the identifiers in question.  Not modelled: strings that are not valid UTF-8 (for them the JSON printer
throws).

## Target results: what is modelled

Writing and reading of target results at the level of JSON values; printing and parsing of the JSON text is not
part of it.  Undefined behaviour (missing keys of a constant JSON object, nodes made from null pointers) is a
separate outcome.  Values with abstract target names are excluded, as they are not cacheable.

## Actions: what is modelled

Identifiers of actions (`createAction`), trees and overlays, with the hash function, the JSON notation of
numbers and their 24 characters wide hexadecimal notation as parameters; JSON form of actions, trees and overlays
at the level of JSON values.  Note: a timeout scaling that is no number is reported as error but then converted
nevertheless, so booleans are accepted.

## Trees: what is modelled

Git tree objects as bytes: creating (`GitRepo::CreateShallowTree`, including the grouping by object and git's
order) and parsing (`git_tree__parse_raw`, transcribed from libgit2: octal modes, separators, lengths), with
the modes of regular files, executables, symlinks and trees.  Overlays: `ParseGitTree`, `ReadGitTree`,
`WriteGitTree`, `ComputeTreeOverlay` over a store of tree objects, with the depth as fuel; the order in which an
unordered map is visited is arbitrary.  Theorems about overlays assume that hashes do not collide among the trees
of the store and the ones written.

## Remote: what is modelled

Retrying and waiting on 32 bit words, with the answers of the server and the random numbers as parameters.  The cache
of operations with times as numbers.  Splitting into requests by size, the query for missing blobs, batch updates
with their fallbacks, and the upload container, against servers whose answers may depend on everything before;
exceptions are answers as well.  Uploads of trees (blob trees, `RetrieveToCas` of the local and the git API,
`VerifyOrUploadTree`) as events on the list of objects the server has, so that a crash is just looking at a prefix
of it; a failing upload of a batch may have stored any part of it in any order.  Not modelled: the network itself, chunked
transfer (for the chunks see C11-C13), `BazelApi::RetrieveToCas` with splitting, and concurrent removal of blobs on
the server.

## Repositories: what is modelled

The minimiser completely, for every order in which unordered maps may be traversed (`P`, `V`); a pair that does not
exist is a separate outcome (null pointer), `at` is shown not to throw (`C48_at`). Repository keys: contents of roots
as far as `ContentDescription` shows them, duplicates, the graph and its JSON text, cached keys. Not modelled: reading
of roots, invalid UTF-8, overflow of the counter of identifiers, failure to store the blob. Hash functions are
parameters, assumed free of collisions on the texts that occur.

## Execution: what is modelled

`LocalAction::Execute` with the cache and the check of outputs; what running a command gives is arbitrary.

## Traversal: what is modelled

`DependencyGraph::Add` as functions on the graph. `Traverser` as transition system: threads are lists of operations
with at most one access to shared state each, taken in any order; there may be any number of threads. The task queues
are one bag of tasks: a queued task may be taken by any thread at any time (for the task system itself see C28). After
`Shutdown` queued tasks may get lost. All atomics are sequentially consistent, as in the code. That the graph has no
cycles is assumed (identifiers of actions are hashes of their inputs). Marks of failed artifacts are computed along the
log of a traversal, with the answers of the execution arbitrary.

## Task system: what is modelled

`TaskSystem`, `NotificationQueue`, `WaitableZeroCounter` as transition system: any number of workers, a client, tasks that
may queue further tasks and shut down; each lock-protected section and each access to an atomic variable is one step;
threads waiting for a condition variable may also wake up without reason. Atomics are sequentially consistent. Not
modelled: exceptions, the limit of the counters.

## Asynchronous map: what is modelled

`AsyncMapNode` and `AsyncMapConsumer` as transition system: a pool of items (queued tasks, and functions in the middle of
their work), each of which makes its next access to shared state at any time. Value creators, consumers, and the time at
which setters, loggers and subcallers are called, are arbitrary. The sharded map from keys to nodes (`AsyncMap`) is a
function; that is, `GetOrCreateNode` is taken to give the same node for the same key. Cycle detection is modelled with
its vector of fixed length, writes outside of it being a separate outcome.

## Hand-over from analysis: what is modelled

`ResultTargetMap`: `Add` under the lock of a part, `ToResult` (actions, blobs, trees, overlays, and the origins of actions and
overlays) and `ConfiguredTargets`. Hash functions, the order in which hash tables are gone through, and the order
in which `std::sort` leaves elements of the same rank are arbitrary. Not modelled: the map of first outputs, counters.

## Target analysis: what is modelled

Which configuration is used for what, which dependencies are requested in which configuration, and how variables, taint, implied
export targets and graph information are computed, for all kinds of targets: sources, source trees, built-in rules, `configure`,
`export` (with and without entry in the target cache), user-defined rules (fields, implicit and anonymous targets, transitions).
Evaluation of expressions is an arbitrary function of what the code hands to the evaluator. Configurations are functions (the data
structure is C01, C04). Analysis is a recursive function with a depth; cyclic dependencies have no result (C27 treats their
report). Export targets are analysed directly under their effective configuration. Serve end points count as entries of the cache.
Not modelled: statistics, progress reports, logging.

## Symbolic links: what is modelled

`resolve_symlinks_map.cpp` in full, for the three ways to treat links. Objects are given by their contents instead of their identifiers.
The map has one value per path, which may come from a request with or without the object handed over; `Val` is the set of
all values possible, `resolve` a function computing one of them. That reading and writing objects works is assumed, except that
trees may be missing in the source. An empty content of a link is undefined behaviour (see C40). Not modelled: the
order in which `CreateTree` writes entries (C32), messages.

## Install targets: what is modelled

`InstallRuleWithDeps`, from the staging of `deps` to the search for conflicts, with the maps of C01, and `PrepareOutputPaths`. `files` is an
unordered map, i.e., a list in any order. Not modelled: reading and evaluating the fields. Taint, variables and exports are part of
the model of target analysis.

## Actions defined by rules: what is modelled

`ACTION` (target_map.cpp:568-810) and `GenericRuleWithDeps` as functions of the values of their arguments. All errors are one outcome. The
outputs are given to `artifacts.emplace` as they are written, the action as normalised. `PathIsNonUpwards("")` (see V12) is taken to be true. Not
modelled: evaluation of the arguments (see C59), lint information.

## Functions of rules: what is modelled

All functions of target_map.cpp:527-1064, as programs that ask the evaluator for the values of some arguments, one after another, and then give
a value or fail. The vectors `actions`, `blobs`, `trees`, `tree_overlays` only grow; the model is given their final contents and lets a call succeed only if
what it records is among them. Hence the evaluation by the code that ends with these vectors is the evaluation of the model. `may_fail` and `no_cache` are
not evaluated, as in the code. Not modelled: annotation of errors, `execution properties` given as `null` in the error message. A transition
that is no map only violates an audit assertion; dependencies are an arbitrary partial function of name and transition.

## Built-in targets and taint: what is modelled

`file_gen`, `symlink`, `tree`, `tree_overlay`, `disjoint_tree_overlay`, `install`, `generic`, source trees, globs and anonymous targets, as functions of the
values of their fields and of what their dependencies provide. Taints are what each kind of target computes: the union of those of its dependencies, together with those its rule
declares; a rule without taints cannot define an action that may fail or must not be cached, and an export target without taints is
required (export.cpp:66-90). Two observations. Anonymous targets carry no taint (target_map.cpp:1711-1753); rules
that use them depend on the target providing the node as well, and have its taint. `WriteTargetCacheEntries` is called although artifacts
may be marked as failed, and `SerializeArtifactDescription` drops the mark; C73_unmarked shows that nothing is lost for export targets.
Not modelled: reading and evaluating the fields of built-in rules.

For C74, a workspace in the file system is a finite tree of files (or symbolic links) and directories; that paths are resolved by the operating system as they are lexically
is assumed, which is right if no directory is reached through a symbolic link. A reference to a directory that does not exist is an empty
tree (directory_map.cpp:53-59). Matching by `fnmatch` is not modelled.

## Target cache: what is modelled

`ComputeKey`, `Describe`, and all functions of target_cache_entry.cpp, on JSON values; texts are given by `dump`, see C09 and C64. Writing the entries after a build is
a transition system: the steps of the asynchronous map (as for C25, C26), and those of the value creator of `CreateTargetCacheWriterMap`. `Store` is two steps, the
download of artifacts, and the addition of the entry; each may fail at any time. Other processes may add to the storage at any time, provided
their entries are complete. Nothing is removed: garbage collection is covered by C14 to C20, and excluded by the lock while the tool is running.
`Complete` is what C18 needs of writers of target cache entries. That a download that is successful makes the artifacts available is assumed.
`Read` is taken to find every entry there is.

## Action keys: what is modelled

`Verif/Remote/Wire.lean` models the part of the protocol-buffer wire format that is used: variable-length numbers, length-delimited fields, default values left out,
fields in the order of their numbers. Bytes are characters below 256 in the texts of numbers; strings are taken as their sequence of characters, as everywhere.
That `SerializeAsString` writes fields in the order of their numbers is how the library does it, and trusted.
`Verif/Remote/ActionKey.lean` has the messages `Command`, `Action`, `Digest`, `Duration`, `Platform` with those fields that are written, and the requests of the local and
the remote execution API. The hash function is a parameter. Message digests are in the digest type of the build.

## Rehashing: what is modelled

`Verif/Remote/Directory.lean` has the messages `Directory`, `FileNode`, `DirectoryNode`, `SymlinkNode` in the wire format of the action keys; node properties are never written and left out.
`Verif/Remote/Rehash.lean` has both directions of rehashing with the loop over objects, to a given depth; theorems hold for all depths that are large enough. Git hashes are in binary form.
Reading from and writing to a CAS works; failures only propagate. Order of the entries of a git tree, which are grouped by object in an unordered map, is a parameter.
Generations are modelled separately, for blobs (`Gens`). Reading a file that is not a `Directory` message dereferences an empty optional in the code and is `none` in the model.

## Responses to executions: what is modelled

`Verif/Remote/Response.lean` has an `ActionResult` with its files, three kinds of symbolic links and directories; the way from there to the artifacts of a local response, back to an `ActionResult` by the execution
service, and to the artifacts of the client. Exit code, standard output and error are left out, as are failures of the network other than missing blobs. The CAS is a partial function from hashes to contents; the
CAS of the service and the one of the client are related in theorems by inclusion. The order of the artifacts, which are kept in an unordered map, is a parameter. The recursion over directories has a bound
on the number of steps; theorems show that it ends for stored directories. The service ignores timeout and platform properties of the request (`C78_request`).

## Computed roots: what is modelled

`Verif/Repo/ArtifactsRoot.lean` has `ArtifactsRoot` with the stack of partial trees. Ids are in binary form, `CreateShallowTree` is taken to succeed and the trees it creates are recorded.
`std::filesystem::path` operations are those of `Verif/Path/Model.lean`. An artifact that is no artifact, not known, without object information, or cannot be rehashed is `none`.
Dereferencing an empty relative path and using the top of an empty stack are a distinct outcome `ub`; that this does not happen is part of `C79_root_partial`.

## Installing and importing: what is modelled

`Verif/Tree/Install.lean` has staging of trees from the local CAS and from git, the fallback from one to the other, and the import of a directory to git. The file system maps absolute paths to directories and files (type and hash of the content).
Path strings are formed as in the code and resolved lexically; symbolic links are never followed, so the statements are about file systems without links to directories at or above the output directory.
Permissions, modification times, and errors of the operating system other than those from files in the way are not modelled. Files in the CAS are taken to have the content of their hash (C19). The parallel staging of `RetrieveOutputs` with a remote API is not modelled.

## Tree structures: what is modelled

`Verif/Repo/Structure.lean` has the computation of tree structures over the trees in the storage, the cache with its generations, and the import of a structure to git by way of a temporary directory (staging and import as for C80).
Storing blobs and trees is taken to succeed. `ComputeStructureLocally` is modelled for trees that are in the local CAS; the search for known trees in git repositories before is not modelled. Garbage collection may remove any trees as long as the storage remains closed, as shown for the storage (C16).

## Retrieving from a remote storage: what is modelled

`Verif/Remote/Download.lean` has the download of objects from a remote storage to another one as relations between the state of the target before and after. The answers of the remote storage and of the target are arbitrary within what is stated there: objects that are not reported missing are there (C51), and
an upload that does not store something reports failure. Tasks running in parallel are interleaved steps, each of which reads or stores one object. The order in which uploads of several blobs happen is the order of the list of blobs, which is arbitrary. A splice yields the object asked for (the check of the digest is part of C12). Exceptions are not modelled.

## Byte streams: what is modelled

`Verif/Remote/Stream.lean` has the chunked reading of a source, the loop of the client that writes a blob, as a small-step relation over an abstract server, the reading of a blob, and the server of this tool. gRPC is modelled by what the client can see of it: a write to a stream succeeds or fails; responses arrive in order,
and if the status is not an error then all of them. Files do not change while they are read, and writing to the temporary files does not fail. Resource names are covered by C46, storing by C19.

## Requests of clients: what is modelled

The requests are further operations of `Verif/Storage/Model.lean`, made of the same accesses to the file system as all others, so they interleave with them and can be interrupted at each access. A request is answered by a value in the
list of running operations. Requests to split and splice are as in C12; byte streams (C83) end in an upload. Requests hold the shared lock of the garbage collector, so collections run only when no request is being processed.

## Source roots: what is modelled

A root is a tree of files, links, directories, and other entries. Objects of the repository are all there and reading does not fail; the root does not change. What git roots remember is kept in a state: for each entry object, whether
its tree was read ignoring special entries (it is read once), and the set of trees marked as valid in the build root. The order of hash maps is replaced by the order of the tree. For roots in the file system, the kernel's walk along
paths is modelled with links followed (40 at most). Undefined behaviour (the empty path) is an outcome of its own. Absent roots and the compatible protocol are not modelled.

## Executor: what is modelled

Processing a node is one step at the time it ends, taken in the order of the log of the traverser; other clients may store closed sets at any time. Endpoints are functions (for each action a new one may be chosen) assumed to be honest: the answer is a
possible result, its objects are stored. The directory of inputs and overlays are functions of the named objects (see C08, C31) with the objects they consist of. Native protocol; timeouts, properties, the rebuilder, and messages are not modelled. Dereferencing a missing object info, `OutputDirs()[0]`
without outputs, and `at` on a missing path in a noexcept function are an outcome of their own.

## Roots for archives, single files and distdirs: what is modelled

A task is a program of atomic steps on what is shared (native CAS, the git repositories and remembered trees of each generation, remembered hashes), and of questions to the outside: serve endpoint, remote, network, directories for distribution files. Tasks are arbitrarily interleaved, with each other and with other activity (`Other`: contents and objects may be added; `Alone`: with exclusive access, when no task is running, contents may be removed and generations rotated). `Valid` is the rely/guarantee judgement: each step keeps the invariant, and the facts a task relies on are stable under what others may do. Answers are honest: a serve endpoint reports for an archive what the archive contains, and says it knows a tree only if it does; what is downloaded may be anything. Not modelled: git itself (hashes are injective functions on what is hashed), libarchive (extraction is a function of type and content), the resolution of symbolic links (C35; here any answer that is right according to a relation), logging and progress.

### Distdirs and single files

The same framework and storage. The hash under which the tree of a distdir is remembered is that of the list of names, hashes and executable flags, and is taken to be injective.

### Without the network

`run` gives the questions asked, the resulting storage and the result of a task run alone; the resolution of symbolic links is a question in the model, but one that is answered on the machine.

### Commits

The storage also has, for each generation, the commits in its git repository and the remembered trees of commits, and besides a repository of the user's own. The directory a commit hash stands for is a function of the environment; histories, branches, and the fetching of submodules are not modelled: the network may give any commits. Whether git objects without a tag are ever removed is a flag of the environment (`tidy`); the results on archives hold in both cases. In any case, what is there is there with all it refers to.

### Commits without the network

As for archives, with `run`. Restricted to environments in which git objects are not removed (`tidy`), except for commits that are in the repository to be used.

### Git trees

Directories from CAS, from the remote and from the serve endpoint are answers to questions; that what is asked for by its hash has this hash is part of the honesty of answers. What a command leaves may be anything. Objects in git repositories are always there together with all they refer to (git does not remove what is referred to by something left, and writes trees last); only whether objects without a tag are removed at all is a flag of the environment.

### Git trees without the network

As for archives and commits, with `run`.

### Directories

Where a path is (in a repository, and which commit is checked out there, or not) is a question; all it may ever be is given by the environment. The roots for directories that are not turned into git trees (`to_git` not set) do not need any set up and are not modelled.

### just-mr: the configuration generated

Model: Verif/MrConfig/Model.lean, the functions from reading the description to the configuration written. JSON values are those of Verif/Expr. Outcomes are success, failure and not ending. The asynchronous maps are functions here; what roots are obtained for archives, git commits etc. is a parameter (`Env.fetch`, these are C87 to C94), and so is the absolute path for a path. Vocabulary of the properties: Verif/MrConfig/Spec.lean.

Not modelled: arguments that replace the description of the main repository or of others (`--main` is), the search for the configuration file, just-mr's rc files, the options passed on to `just`.

Seen by the way: if `IsCompatible` fails, the serve API is dropped and then the unset optional dereferenced (setup.cpp); a tree-structure root whose `repo` is no string ends in an exception (`Parsed.throws`); unknown values of the pragma `special` are ignored.

### just: reading the configuration

Verif/MrConfig/JustModel.lean. An error or an exception, which both end the program, is `none`. Whether a git tree can be opened is a parameter. The roots of computed roots and tree structures are only read here, computing them is not modelled.

### The list of absent repositories

`setAbsent` and `overrideAbsent` in Verif/MrConfig/Model.lean; reading the file itself is not modelled.

### rc files of just-mr (Verif/MrRc)

`Model` has the reading of locations (`ReadLocationObject`), the merging of two rc files (`MergeMRRC`, field by field), reading the rc file together with the further files it names (`ReadJustMRRC`) and how the arguments are filled from the result; `Spec` states which file is the last to give a field without reference to the order in which the code merges. `Props`: what a field of the result is; `Locations`: lists of locations, log files, the invocation log, the look-up of the configuration. The file system is a function from paths to contents; JSON parsing is not modelled. Printing of diagnostics is not modelled.

### Launching just (Verif/MrRc/Launch*)

`Launch` has the table of subcommands, the argument vector built by `CallJust`, and the options of each subcommand of just with the way repeated options are combined (last wins, appended, flag). The theorems read the argument vector with that table. Options in the form `--opt=value`, glued short options and `--` are not modelled; setting up the repositories is a parameter (it is the subject of C95). `execvp` itself is not modelled.

### The serve endpoint (Verif/Serve)

`Roots` models the set-up of repositories for a request (`DetermineRoots`): the client's repository blob (the text of Verif.Repo.Key) is read, each root has to be in the form of an absent git tree and is looked up in the endpoint's git repositories. Git repositories are given by the answers of `IsTreeInRepo` and `FileRoot::FromGit`; JSON parsing is taken as inverse of dumping (dumping is injective, Verif.Util.Json). `RootsLemmas` and `RootsProps` prove C100.

`Request` models the reading of a request for a target: addresses and dispatch lists, the shard, the blob of the key. The outcome `crash` is a call of `std::terminate`. The texts of name and configuration inside the key are parsed by a parameter; setting up the repositories is `Roots`. Not modelled: retrieving the blobs from the remote-execution endpoint (a failure is a status).

`Target` models what happens then: look-up in the shard of the client, analysis and build, writing of entries, the final look-up and upload, the reply, and what the client does with it. Export targets are abstract keys with the export targets their analysis asks for and a function computing the result from the execution properties and the results of those; `builtN` (in `TargetLemmas`) builds without any cache and is what the theorems compare with. Assumed: building is reproducible; a key determines the target (C75_key_partial) and a shard the properties (C75_backend, C101_shard); requests one after the other; no further serve endpoint behind the endpoint; nothing is removed from the storages meanwhile (garbage collection is modelled in Verif/Storage). Not modelled: `KeepRoot`; entries that cannot be parsed; nested targets written although the requested one has failed artifacts.

`Variables` models the request for the flexible variables of a target and the reading of the same field by the rule `export`. What a git repository has is one of four outcomes. Observation: a repository that has the tree but not the blob of the targets file makes the request fail even if a later repository has it, while a repository that cannot read the file is skipped; the two messages are exchanged. An exception for a target whose description is no map is turned into a status by the gRPC library; it is modelled as a refusal.

`Source` models `source_tree.cpp` on the storage of `Mr` (the same git cache, and the same files remembering trees); `SourceLemmas` shows each request valid under the rules of C87, extended by what is put to the remote; C104_right_partial has requests and runs of just-mr together. Not modelled: the digest in the reply, `ComputeTreeStructure`, locks, the JSON format of requests. Observations: one configured repository that cannot be opened hides all later ones (INTERNAL_ERROR), while `ServeTargetVariables` skips such repositories; older generations are not consulted by the endpoint; with a compatible remote, `ServeDistdirTree` does not look into the native CAS; a resolved tree is put to the remote from the repository of the unresolved tree, which differs from the git cache only if a file remembering a tree points to a tree that is not kept, which is excluded by the invariant; the tree is set in the reply also with INTERNAL_ERROR from `SetDigestInResponse`, contrary to just_serve.proto:131-132; `GetRemoteTree` does not check the tree imported (honesty of CAS makes it the right one, C19).

`Dag.Rebuild` models `Rebuilder::Process`, `DetectFlakyAction`, and the report, on top of `Dag.Executor`. The cache endpoint is a relation: which answers it may give for an action in a directory, and whether its digest of the action is the same; nothing is assumed of it for C105_rebuild and C105_sound, and for C105_found only that it has one result for an action. That the rebuild itself does not change the action cache is C21 (`PretendCached`). Observation: outputs that are in the cached result only are not compared; they do not exist, as results contain what is declared.

`Analyse.Rules` models how expression files and rule files are turned into `ExpressionFunction` and `UserRule` objects. The meaning is stated with `evalNamed` (in `RulesProps`), which follows names at call time, on top of what is written in the files (`Written`). Observations: names that occur twice in the same list of fields are accepted (the dependencies are then requested twice), unexpected keys of a rule only lead to a warning. How the fields of a target are evaluated with an accepted rule is the model `Analyse.Target`.

`Net.Url` models the functions that match URLs, and those that choose settings. The results of `curl_url_get`, of `git_config_parse_bool` and `git_config_parse_path`, and the sequence of entries of the configuration are given. Observations, not modelled: the comparison `ConfigKeyMatchCompare` returns true for equal arguments, so that the requirements of `std::map` are not met (with the tree of libstdc++ the latest entry comes first, as intended); `NoproxyPatternMatches` decrements the begin of a vector; the regular expressions for names are not anchored at the end (`http.<url>.proxyAuthMethod` is looked at as well, with a wrong URL). Modelled: an empty `http.proxy` is ignored (there is a test for this; git disables the proxy); a pattern with the default port does not match a URL without explicit port.

`Repo.Evaluate` models the traversal for roots, the decisions of `ComputeAndFill` and `ResolveTreeStructureRoot`, and `SetPrecomputedRoot`, with the phases of each root as states of an interleaving semantics. `AsyncMapConsumer` is represented by what C25 and C26 show. The answers of cache, serve endpoint, build and git are arbitrary, but trees given are right (for the structure of trees this is C81, for the tree of artifacts C79); that the tree of a target depends only on the repositories its repository depends on is an assumption (`World.OK`). C49_violation_stale (cached keys of repositories are not reset if a dependency changes) has no effect here because of `C108_order`. Not modelled: statistics (a root found in the cache whose tree is not in the local git repository is counted as cached, and then again as executed), conversion between hash functions.

`AddCas.Model` has the file system as a tree with links and numbered files, path resolution of the operating system with its limit on links, the CAS with files that are its own or linked, and the import function by function. `AddCas.Spec` says what is to be shown (`Shows`) and what a path leads to (`Resolves`). `PlainFor` is the condition under which lexical and actual resolution agree. The directory is given by a path without links. Not modelled: upload, concurrent changes of the file system, errors of reading, the limit on the length of paths.

`InstallCas.Model` has parsing of object identifiers (`std::getline`, `std::atol`), the selection of sub-objects, the choice of output path, installing (with the functions of C80), and writing of archives with the members in the order they are written. Failures of writing and of copying are parameters (`Outside`). Not modelled: libarchive’s encoding, the text shown for trees on stdout, the compatible protocol.

`Remote.Client` has `BazelExecutionClient::Execute` and `WaitExecution` with `ReadExecution` and `ExtractContents`, `ExecuteBazelActionSync`, `GetActionResult`, and `BazelAction::Execute`. The endpoint is a function from the number of the call to what arrives. The upload of blobs is a parameter (success or not), and so are the identifiers of actions. Not modelled: exceptions, stdout and stderr, logs, durations.

`MrUpdate.Model` has reading the descriptions (using `ResolveRepo` from `MrConfig.Model`), the choice of the commit from the references listed or from what `git ls-remote` prints, which of several equal keys is used, and the assignment to nested JSON fields. Not modelled: numbers in the configuration, progress, temporary directories.

`Mirrors.Model` has the lists given by the user as JSON values, `SortByHostname` with its map of lists, the order of locations, fetching archives with the checks of hashes, and fetching commits up to where the commit is there. Not modelled: libcurl and git themselves, failures of the local storage, and the messages that list the locations tried.

`Cli.Target` has the search for markers, the current module, the arguments that name the target, the default target, and the configuration. Not modelled: symbolic links in the working directory, and numbers in configurations.

`MrFetch.Model` has the choice of the directory and of the repositories, the parsing of descriptions, the deduplication by content and the writing of files. Whether an archive or a tree can be obtained, and whether a file can be written, are parameters. Not modelled: what is left behind by a failed call, and the backup to the remote endpoint (whose failures are only warnings).

`Request.Model` has the choice of the action and the result for it. Not modelled: actions of targets taken from a cache, which are not analysed.

`Dump.Model` has the traversal of expressions. Not modelled: the text of the JSON written, and the other dumps. Artifacts and runfiles of results are maps of artifacts, so that there are no nodes in them.

`JsonText.Model` has the functions of `utils/cpp/json.hpp` that produce text. `squeeze` is the removal of white space according to the grammar of JSON; that this does not change the value of a text is part of the specification. The number of blanks at the beginning of a line is stated for values that are opened completely (`C118_pretty`). Not modelled: `ExtractValueAs` and its variants (json.hpp:30-52), exceptions of `dump` for strings that are not UTF-8.

`Dump.Targets` has the construction of the JSON value of `DumpTargets`; its text is that of C118. The list of targets is given (`Analyse.ResultMap` has the order); which targets are export targets is not part of this.

`Auth.Model` has the builder of the authentication and the credentials of channels and services. Trusted: the default values of the gRPC options and what they are documented to mean (`serves`); TLS itself; that signatures of certificates are checked right (`signed`).
