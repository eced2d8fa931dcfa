import Verif.MrRc.LaunchProps

/-!
# Launching just: the invocation log, examples and violations (C99, continued)

* `C99_invocation`: the options for the invocation log are accepted; the files are in the directory of the
  invocation.
* `C99_metadata`: the metadata file.
* `C99_do`: `do` behaves like the subcommand itself.
* `C99_version_partial`: the command for `version`.
* `C99_violation_version` (V84): with a setting for logging, `version` does not work.
* `C99_violation_instance` (V85): the instance name is dropped if there is no address.
-/

namespace Verif.MrRc

open Verif

section
variable {N : Type}

/-- A name that stays in the directory it is used in. -/
def PlainName (n : Str) : Prop := '/' ∉ n ∧ n ≠ [] ∧ n ≠ ".".toList ∧ n ≠ "..".toList

theorem valid_plain {n : Str} (h : Path.isValidFileName n = true) : PlainName n := by
  unfold Path.isValidFileName at h
  split at h
  · cases h
  · rename_i hs
    refine ⟨hs, ?_, ?_, ?_⟩
    · rintro rfl; simp at h
    · rintro rfl; exact absurd h (by decide)
    · rintro rfl; exact absurd h (by decide)

theorem fileArg_inv {name : String} {dir : Str} {n : Option Str} {l : List Str} (h : fileArg name dir n = some l) :
    l = margs name (n.map (below dir)).toList ∧ ∀ x, n = some x → PlainName x := by
  cases n with
  | none =>
    simp only [fileArg, Option.some.injEq] at h
    exact ⟨h.symm, fun x hx => nomatch hx⟩
  | some n =>
    simp only [fileArg] at h
    split at h
    · rename_i hv
      simp only [Option.some.injEq] at h
      exact ⟨h.symm, fun x hx => by cases hx; exact valid_plain hv⟩
    · cases h

theorem logDir_inv {made : Str → Bool} {i : Invocation} {id dir : Str} (h : logDir made i id = some (some dir)) :
    ∃ d p, i.directory = some d ∧ dir = d ++ "/".toList ++ p ++ "/".toList ++ id ∧ made dir = true ∧ PlainName p ∧
      (i.projectId = some p ∨ (i.projectId = none ∧ p = "unknown".toList)) := by
  unfold logDir at h
  cases hd : i.directory with
  | none => rw [hd] at h; simp at h
  | some d =>
    rw [hd] at h
    simp only at h
    cases hp : i.projectId with
    | none =>
      rw [hp] at h
      simp only [Option.some.injEq] at h
      split at h
      · rename_i hm
        simp only [Option.some.injEq] at h
        subst h
        exact ⟨d, _, rfl, by simp [below], hm, ⟨by decide, by decide, by decide, by decide⟩, .inr ⟨rfl, rfl⟩⟩
      · cases h
    | some p =>
      rw [hp] at h
      simp only at h
      split at h
      · rename_i hv
        simp only [Option.some.injEq] at h
        split at h
        · rename_i hm
          simp only [Option.some.injEq] at h
          subst h
          exact ⟨d, p, rfl, by simp [below], hm, valid_plain hv, .inl rfl⟩
        · cases h
      · cases h

/-- The names in the rc file for the options of the invocation log. -/
inductive LogFile (i : Invocation) : String → Option Str → Prop
  | graph : LogFile i "--dump-graph" i.graphFile
  | plain : LogFile i "--dump-plain-graph" i.graphFilePlain
  | toBuild : LogFile i "--dump-artifacts-to-build" i.artifactsToBuild
  | artifacts : LogFile i "--dump-artifacts" i.artifacts
  | profile : LogFile i "--profile" i.profile

/-- The directory of an invocation: a new directory below that of the project. -/
def InvocationDir (w : World) (i : Invocation) (dir : Str) : Prop :=
  ∃ d p, i.directory = some d ∧ dir = d ++ "/".toList ++ p ++ "/".toList ++ w.id ∧ w.made dir = true ∧
    PlainName p ∧ (i.projectId = some p ∨ (i.projectId = none ∧ p = "unknown".toList))

/-- The options of the invocation log are accepted.  For a subcommand that dumps graphs, they name the files
requested, directly in the new directory of the invocation; `--dump-artifacts` is given if the subcommand
accepts it.  Without such a directory, or for other subcommands, no options are added. -/
theorem C99_invocation {c : Codec N} {w : World} {a : Args N} {l : Launch} (h : launch c w a = some l)
    {s : Str} {user : List Str} (hs : subcommandOf a = (some s, user)) (hk : s ∈ launched) :
    ∃ (fwd inv : List Str) (t : List Opt) (ie : List Event),
      l.cmd = a.just.getD "just".toList :: s :: (fwd ++ ((a.justArgs.find s).getD [] ++ (inv ++ user))) ∧
      justOpts s = some t ∧ parse t inv = some ie ∧
      ((inv = [] ∧ ((∀ dir, ¬ InvocationDir w a.invocation dir) ∨ ¬ Accepts s "--dump-graph")) ∨
        ∃ dir, InvocationDir w a.invocation dir ∧ Accepts s "--dump-graph" ∧
          ∀ name file, LogFile a.invocation name file → ∀ v, v ∈ values name.toList ie ↔
            Accepts s name ∧ ∃ n, file = some n ∧ PlainName n ∧ v = dir ++ "/".toList ++ n) := by
  obtain ⟨f, t, ht⟩ := table hk
  obtain ⟨cfg, fwd, dir, inv, h1, h2, h3, h4, h5, h6⟩ := launch_inv h hs ht.flags
  have hg := ht.graphs
  cases dir with
  | none =>
    simp only [invocationArgs, Option.some.injEq] at h4
    subst h4
    refine ⟨fwd, [], t, [], h6, ht.opts, rfl, .inl ⟨rfl, .inl ?_⟩⟩
    rintro dir ⟨d, p, e1, e2, e3, e4, e5⟩
    have key : (if w.made dir = true then some dir else none) = none := by
      unfold logDir at h3
      rw [e1] at h3
      have hb : below (below d p) w.id = dir := by rw [e2]; simp [below]
      rcases e5 with e5 | ⟨e5, rfl⟩
      · rw [e5] at h3
        simp only at h3
        split at h3
        · simp only [Option.some.injEq] at h3
          rw [hb] at h3
          exact h3
        · cases h3
      · rw [e5] at h3
        simp only [Option.some.injEq] at h3
        rw [hb] at h3
        exact h3
    rw [if_pos e3] at key
    cases key
  | some dir =>
    have hdir : InvocationDir w a.invocation dir := logDir_inv h3
    simp only [invocationArgs] at h4
    cases hr : f.remoteProps with
    | false =>
      rw [hr] at h4
      simp only [Bool.false_eq_true, if_false, Option.some.injEq] at h4
      subst h4
      refine ⟨fwd, [], t, [], h6, ht.opts, rfl, .inl ⟨rfl, .inr ?_⟩⟩
      intro hx
      have := hg "--dump-graph" (by simp)
      rw [hr] at this
      simp [hx] at this
    | true =>
      rw [hr] at h4
      simp only [if_true, Option.bind_eq_bind, Option.bind_eq_some_iff, Option.some.injEq] at h4
      obtain ⟨x1, g1, x2, g2, x3, g3, x4, g4, x5, g5, rfl⟩ := h4
      obtain ⟨rfl, n1⟩ := fileArg_inv g1
      obtain ⟨rfl, n2⟩ := fileArg_inv g2
      obtain ⟨rfl, n3⟩ := fileArg_inv g3
      obtain ⟨rfl, n4⟩ := fileArg_inv g4
      obtain ⟨rfl, n5⟩ := fileArg_inv g5
      have hacc : ∀ n ∈ ["--dump-graph", "--dump-plain-graph", "--dump-artifacts-to-build"], Accepts s n := by
        intro n hn
        have := hg n hn
        rw [hr] at this
        exact of_decide_eq_true this.symm
      have hprof := ht.profile hr
      -- as parts
      let sg : List Seg :=
        [.o "--dump-graph" "--dump-graph" (a.invocation.graphFile.map (below dir)).toList,
         .o "--dump-plain-graph" "--dump-plain-graph" (a.invocation.graphFilePlain.map (below dir)).toList,
         .o "--dump-artifacts-to-build" "--dump-artifacts-to-build"
           (a.invocation.artifactsToBuild.map (below dir)).toList,
         .o "--dump-artifacts" "--dump-artifacts"
           ((if f.doesBuild then a.invocation.artifacts else none).map (below dir)).toList,
         .o "--profile" "--profile" (a.invocation.profile.map (below dir)).toList]
      have hok : ∀ x ∈ sg, x.Ok t := by
        have ht1 := ht.opts
        have ht2 := ht.flags
        clear * - hk ht1 ht2 hr sg
        simp only [launched, List.mem_cons, List.not_mem_nil, or_false] at hk
        simp only [sg, List.forall_mem_cons]
        rcases hk with rfl | rfl | rfl | rfl | rfl | rfl | rfl | rfl
        all_goals
          cases ht1
          cases ht2
          first
          | exact absurd hr (by decide)
          | refine ⟨?_, ?_, ?_, ?_, ?_, fun _ hx => absurd hx List.not_mem_nil⟩ <;>
              first | exact .inr rfl | exact .inl rfl
      have hpar := parse_segs hok
      have hfl : sg.flatMap Seg.args = margs "--dump-graph" (a.invocation.graphFile.map (below dir)).toList ++
          margs "--dump-plain-graph" (a.invocation.graphFilePlain.map (below dir)).toList ++
          margs "--dump-artifacts-to-build" (a.invocation.artifactsToBuild.map (below dir)).toList ++
          margs "--dump-artifacts" ((if f.doesBuild then a.invocation.artifacts else none).map (below dir)).toList ++
          margs "--profile" (a.invocation.profile.map (below dir)).toList := by
        simp only [sg, List.flatMap_cons, List.flatMap_nil, Seg.args, List.append_nil, List.append_assoc]
      rw [hfl] at hpar
      refine ⟨fwd, _, t, _, h6, ht.opts, hpar, .inr ⟨dir, hdir, hacc _ (by simp), ?_⟩⟩
      have one : ∀ {n : Option Str} {name : String} {v : Str}, (∀ x, n = some x → PlainName x) → Accepts s name →
          (v ∈ (n.map (below dir)).toList ↔ Accepts s name ∧ ∃ x, n = some x ∧ PlainName x ∧
            v = dir ++ "/".toList ++ x) := by
        intro n name v hn ha
        simp only [Option.mem_toList, Option.map_eq_some_iff]
        constructor
        · rintro ⟨x, rfl, rfl⟩; exact ⟨ha, x, rfl, hn x rfl, rfl⟩
        · rintro ⟨_, x, rfl, _, rfl⟩; exact ⟨x, rfl, rfl⟩
      intro name file hlf v
      rw [values_segs]
      cases hlf
      all_goals
        simp (decide := true) only [sg, List.flatMap_cons, List.flatMap_nil, Seg.pick, if_true, if_false,
          List.append_nil, List.nil_append]
      · exact one n1 (hacc _ (by simp))
      · exact one n2 (hacc _ (by simp))
      · exact one n3 (hacc _ (by simp))
      · cases hb : f.doesBuild with
        | true =>
          rw [hb] at n4
          have := ht.artifacts
          rw [hb] at this
          exact one n4 (of_decide_eq_true this.symm)
        | false =>
          have := ht.artifacts
          rw [hb] at this
          have hno : ¬ Accepts s "--dump-artifacts" := of_decide_eq_false this.symm
          simp [hno]
      · exact one n5 hprof

/-- The metadata file of an invocation is directly in the directory of the invocation, and the command line
recorded in it is the one executed; it is written if requested and the directory could be created. -/
theorem C99_metadata {c : Codec N} {w : World} {a : Args N} {l : Launch} (h : launch c w a = some l)
    {s : Str} {user : List Str} (hs : subcommandOf a = (some s, user)) (hk : s ∈ launched ∨ s = "version".toList) :
    (∀ p cmd, l.metadata = some (p, cmd) → cmd = l.cmd ∧ ∃ dir n, InvocationDir w a.invocation dir ∧
      a.invocation.metadata = some n ∧ PlainName n ∧ p = dir ++ "/".toList ++ n) ∧
    (∀ dir n, logDir w.made a.invocation w.id = some (some dir) → a.invocation.metadata = some n →
      l.metadata = some (dir ++ "/".toList ++ n, l.cmd)) := by
  obtain ⟨f, hf⟩ : ∃ f, assoc s knownSubcommands = some f := by
    rcases hk with hk | rfl
    · obtain ⟨f, t, ht⟩ := table hk
      exact ⟨f, ht.flags⟩
    · exact ⟨_, rfl⟩
  obtain ⟨cfg, fwd, dir, inv, h1, h2, h3, h4, h5, h6⟩ := launch_inv h hs hf
  constructor
  · intro p cmd hm
    rw [hm] at h5
    unfold metadataOf at h5
    cases dir with
    | none => simp at h5
    | some dir =>
      cases hn : a.invocation.metadata with
      | none => rw [hn] at h5; simp at h5
      | some n =>
        rw [hn] at h5
        simp only at h5
        split at h5
        · rename_i hv
          simp only [Option.some.injEq, Prod.mk.injEq] at h5
          exact ⟨h5.2.symm, dir, n, logDir_inv h3, rfl, valid_plain hv, by rw [← h5.1]; rfl⟩
        · cases h5
  · intro dir' n hd hn
    rw [h3] at hd
    simp only [Option.some.injEq] at hd
    subst hd
    unfold metadataOf at h5
    rw [hn] at h5
    simp only at h5
    split at h5
    · simp only [Option.some.injEq] at h5
      rw [← h5]
      rfl
    · cases h5

/-- `do` with a subcommand behaves like the subcommand itself. -/
theorem C99_do (c : Codec N) (w : World) (a : Args N) (s : Str) (l : List Str) :
    launch c w { a with subcommand := none, extra := s :: l } =
      launch c w { a with subcommand := some s, extra := l } := rfl

/-- For `version`, if there are no settings for logging, only the arguments of the rc file and of the user are
passed. -/
theorem C99_version_partial {c : Codec N} {w : World} {a : Args N} {l : Launch} (h : launch c w a = some l)
    {user : List Str} (hs : subcommandOf a = (some "version".toList, user)) (h1 : a.logFiles = [])
    (h2 : a.logLimit = none ∨ a.logLimit = some 3) (h3 : a.restrictLimit = none) (h4 : a.plainLog = false) :
    l.cmd = a.just.getD "just".toList :: "version".toList ::
      ((a.justArgs.find "version".toList).getD [] ++ user) := by
  obtain ⟨cfg, fwd, dir, inv, g1, g2, g3, g4, g5, g6⟩ := launch_inv h hs (f := noFlags) rfl
  have hf : fwd = [] := by
    obtain ⟨m, _, rfl⟩ := forwarded_segs g2
    simp only [segs, h1, h3, h4, List.flatMap_cons, List.flatMap_nil, List.append_nil]
    rcases h2 with h2 | h2 <;> rw [h2] <;> rfl
  have hi : inv = [] := by
    cases dir <;> · simp [invocationArgs, noFlags] at g4; exact g4
  rw [g6, hf, hi]
  rfl

end

/-! ## Examples -/

namespace Example

/-- Some way to write values. -/
def codec : Codec Nat where
  number := fun n => (toString n).toList
  list := fun l => l.flatMap fun s => s ++ " ".toList
  map := fun m => m.items.flatMap fun p => p.1 ++ " ".toList

/-- Setting up the repositories succeeds, and directories can be created. -/
def world : World := ⟨fun _ => true, "id".toList, some "/cfg".toList⟩

/-- `just-mr -D… -r… --log-limit 5 build -J 4 t` with an rc file having arguments for `build` and an invocation
log. -/
def args : Args Nat :=
  { subcommand := some "build".toList, extra := ["-J".toList, "4".toList, "t".toList]
    defines := [some (.obj [("A".toList, .num 1)]), some (.obj [("B".toList, .num 2)])]
    address := some "host".toList, logLimit := some 5, launcher := some defaultLauncher
    justArgs := mk [("build".toList, ["-J".toList, "8".toList])]
    invocation := { directory := some "/log".toList, profile := some "profile".toList
                    metadata := some "meta".toList } }

example : ∃ l, launch codec world args = some l ∧ l.cmd =
    ["just", "build", "-C", "/cfg", "--log-limit", "5", "-D", "A B ", "-r", "host", "-J", "8", "--profile",
      "/log/unknown/id/profile", "-J", "4", "t"].map String.toList ∧
    l.metadata = some ("/log/unknown/id/meta".toList, l.cmd) :=
  ⟨_, rfl, by decide, by decide⟩

example : subcommandOf args = (some "build".toList, ["-J".toList, "4".toList, "t".toList]) ∧
    "build".toList ∈ launched ∧ Accepts "build".toList "--local-launcher" ∧ Accepts "build".toList "-D" := by
  refine ⟨rfl, by decide, by decide, by decide⟩

/-- The user's value wins. -/
example : ∃ es, parse buildCmdOpts (["--log-limit", "5", "-J", "8", "-J", "4", "t"].map String.toList) = some es ∧
    valueOf "--build-jobs".toList es = some "4".toList ∧ valueOf "--log-limit".toList es = some "5".toList :=
  ⟨_, rfl, by decide, by decide⟩

/-- Written values can be read back. -/
example : ∃ (dl : Str → Option (List Str)) (dn : Str → Option Nat),
    (∀ x, args.launcher = some x → dl (codec.list x) = some x) ∧
    ∀ x, args.logLimit = some x → dn (codec.number x) = some x :=
  ⟨fun _ => some defaultLauncher, fun _ => some 5, fun x hx => by cases hx; rfl, fun x hx => by cases hx; rfl⟩

/-- So can the definitions. -/
example : ∃ dm : Str → Option (OMap Str (Json Nat)), ∀ x, Overlay args.defines x → dm (codec.map x) = some x := by
  refine ⟨fun _ => overlayDefines args.defines OMap.empty, ?_⟩
  intro x ⟨ms, h1, h2, h3⟩
  obtain ⟨m, hm⟩ : ∃ m, overlayDefines args.defines OMap.empty = some m := ⟨_, rfl⟩
  obtain ⟨ms', h1', h2', h3'⟩ := overlayDefines_overlay hm
  have heq : ms = ms' := by
    clear h3 h3' hm
    generalize args.defines = ds at h1 h2 h1' h2'
    induction ds generalizing ms ms' with
    | nil =>
      cases ms <;> cases ms' <;> first | rfl | (simp at h1; done) | (simp at h1'; done)
    | cons d ds ih =>
      cases ms with
      | nil => cases h1
      | cons y ms =>
        cases ms' with
        | nil => cases h1'
        | cons y' ms' =>
          obtain ⟨l, e1, e2⟩ := h2 (d, y) (by simp)
          obtain ⟨l', e1', e2'⟩ := h2' (d, y') (by simp)
          simp only at e1 e2 e1' e2'
          rw [e1] at e1'
          cases e1'
          rw [e2, e2', ih ms ms' (by simpa using h1) (fun p hp => h2 p (by simp [hp]))
            (by simpa using h1') (fun p hp => h2' p (by simp [hp]))]
  subst heq
  simp only [hm, Option.some.injEq]
  apply OMap.ext
  intro k
  apply Option.ext
  intro v
  exact Iff.trans (h3' k v) (h3 k v).symm

/-- `version` without settings for logging. -/
example : ∃ l, launch codec world { subcommand := some "version".toList, extra := ["--help".toList] } = some l ∧
    l.cmd = ["just", "version", "--help"].map String.toList :=
  ⟨_, rfl, by decide⟩

end Example

open Example in
/-- V84: `just version` accepts no options, but the settings for logging are forwarded; with `"log limit"` in the
rc file, `just-mr version` does not work.  The same holds for `do serve`. -/
theorem C99_violation_version : ∃ (c : Codec Nat) (w : World) (sub : Str) (l : Launch) (args : List Str)
    (t : List Opt), sub = "version".toList ∧
    launch c w { subcommand := some sub, logLimit := some 5 } = some l ∧
    l.cmd = "just".toList :: sub :: args ∧ justOpts sub = some t ∧ parse t args = none :=
  ⟨codec, world, _, _, ["--log-limit".toList, "5".toList], _, rfl, rfl, rfl, rfl, rfl⟩

open Example in
/-- The same for `just-mr do serve config`. -/
theorem C99_violation_serve : ∃ (c : Codec Nat) (w : World) (l : Launch) (args : List Str) (t : List Opt),
    launch c w { extra := ["serve".toList, "config".toList], plainLog := true } = some l ∧
    l.cmd = "just".toList :: "serve".toList :: args ∧ justOpts "serve".toList = some t ∧
    parse t ["config".toList] = some [.positional "config".toList] ∧ parse t args = none :=
  ⟨codec, world, _, ["--plain-log".toList, "config".toList], _, rfl, rfl, rfl, rfl, rfl⟩

/-- `just-mr --remote-instance-name inst build -r host`. -/
def Example.instanceArgs : Args Nat where
  subcommand := some "build".toList
  extra := ["-r".toList, "host".toList]
  instanceName := some "inst".toList

open Example in
/-- V85: the instance name given to just-mr is not forwarded, if the address is not given to just-mr, but to
`just`, although `just build` accepts it; the manual (share/man/just-mr.1.md:343-348) has it forwarded. -/
theorem C99_violation_instance : ∃ (c : Codec Nat) (w : World) (l : Launch) (args : List Str) (t : List Opt)
    (es : List Event), launch c w instanceArgs = some l ∧
    l.cmd = "just".toList :: "build".toList :: args ∧ justOpts "build".toList = some t ∧
    Accepts "build".toList "--remote-instance-name" ∧ parse t args = some es ∧
    valueOf "--remote-execution-address".toList es = some "host".toList ∧
    valueOf "--remote-instance-name".toList es = none :=
  ⟨codec, world, _, ["-C".toList, "/cfg".toList, "-r".toList, "host".toList], _, _, rfl, rfl, rfl, by decide, rfl,
    by decide, by decide⟩

end Verif.MrRc
