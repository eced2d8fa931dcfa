import Verif.MrRc.Launch
import Verif.MrRc.Lemmas

/-!
# Lemmas about launching just
-/

namespace Verif.MrRc

open Verif

/-! ## Parsing -/

theorem parse_append (t : List Opt) : ∀ {l : List Str} {es : List Event}, parse t l = some es → ∀ xs,
    parse t (l ++ xs) = (parse t xs).map fun fs => es ++ fs
  | [], es, h, xs => by
    simp only [parse, Option.some.injEq] at h
    subst h
    simp
  | [x], es, h, xs => by
    simp only [parse] at h
    simp only [List.cons_append, List.nil_append, parse]
    cases hl : lookup t x with
    | none =>
      rw [hl] at h
      simp only at h ⊢
      split at h
      · cases h
      · rename_i hx
        rw [if_neg hx]
        simp only [Option.map_some, Option.some.injEq] at h
        subst h
        rfl
    | some kb =>
      obtain ⟨k, b⟩ := kb
      rw [hl] at h
      cases b with
      | false =>
        simp only [Option.map_some, Option.some.injEq] at h ⊢
        subst h
        rfl
      | true => simp at h
  | x :: y :: l, es, h, xs => by
    rw [parse] at h
    rw [List.cons_append, parse]
    cases hl : lookup t x with
    | none =>
      rw [hl] at h
      simp only at h ⊢
      split at h
      · cases h
      · rename_i hx
        rw [if_neg hx]
        obtain ⟨es', h1, rfl⟩ := Option.map_eq_some_iff.1 h
        rw [parse_append t h1 xs, Option.map_map]
        rfl
    | some kb =>
      obtain ⟨k, b⟩ := kb
      rw [hl] at h
      cases b with
      | false =>
        simp only at h ⊢
        obtain ⟨es', h1, rfl⟩ := Option.map_eq_some_iff.1 h
        rw [parse_append t h1 xs, Option.map_map]
        rfl
      | true =>
        simp only [List.cons_append] at h ⊢
        obtain ⟨es', h1, rfl⟩ := Option.map_eq_some_iff.1 h
        rw [parse_append t h1 xs, Option.map_map]
        rfl
termination_by l => l.length

/-- Part of a command: an option with values, or a flag. -/
inductive Seg
  | o (name key : String) (vs : List Str)
  | f (name : String) (b : Bool)

/-- The arguments. -/
def Seg.args : Seg → List Str
  | .o name _ vs => margs name vs
  | .f name b => farg name b

/-- The events. -/
def Seg.events : Seg → List Event
  | .o _ key vs => vs.map fun v => .option key.toList v
  | .f name b => if b then [.flag name.toList] else []

/-- It is accepted. -/
def Seg.Ok (t : List Opt) : Seg → Prop
  | .o name key vs => vs = [] ∨ lookup t name.toList = some (key.toList, true)
  | .f name b => b = false ∨ lookup t name.toList = some (name.toList, false)

theorem parse_margs {t : List Opt} {name key : String} (h : lookup t name.toList = some (key.toList, true)) :
    ∀ vs : List Str, parse t (margs name vs) = some (vs.map fun v => .option key.toList v)
  | [] => rfl
  | v :: vs => by
    have ih := parse_margs h vs
    unfold margs at ih ⊢
    rw [List.flatMap_cons, List.cons_append, parse, h]
    simp only [List.cons_append, List.nil_append]
    rw [ih]
    rfl

theorem parse_seg {t : List Opt} : ∀ {s : Seg}, s.Ok t → parse t s.args = some s.events
  | .o name key vs, h => by
    rcases h with rfl | h
    · rfl
    · exact parse_margs h vs
  | .f name b, h => by
    rcases h with rfl | h
    · rfl
    · cases b with
      | false => rfl
      | true =>
        simp only [Seg.args, farg, if_true, Seg.events, parse, h, Option.map_some]

theorem parse_segs {t : List Opt} : ∀ {l : List Seg}, (∀ s ∈ l, s.Ok t) →
    parse t (l.flatMap Seg.args) = some (l.flatMap Seg.events)
  | [], _ => rfl
  | s :: l, h => by
    rw [List.flatMap_cons, parse_append t (parse_seg (h s List.mem_cons_self)),
      parse_segs (fun x hx => h x (List.mem_cons_of_mem _ hx))]
    rfl

theorem oarg_margs (name : String) (v : Option Str) : oarg name v = margs name v.toList := by
  cases v <;> rfl

theorem values_append (k : Str) (a b : List Event) : values k (a ++ b) = values k a ++ values k b := by
  unfold values
  rw [List.filterMap_append]

theorem values_map (k k' : Str) : ∀ vs : List Str,
    values k (vs.map fun v => Event.option k' v) = if k' = k then vs else []
  | [] => by simp [values]
  | v :: vs => by
    have ih := values_map k k' vs
    unfold values at ih ⊢
    rw [List.map_cons, List.filterMap_cons]
    simp only
    by_cases h : k' = k
    · simp only [h, if_true] at ih ⊢
      rw [ih]
    · simp only [h, if_false] at ih ⊢
      exact ih

theorem values_seg (k : Str) : ∀ s : Seg, values k s.events =
    match s with
    | .o _ key vs => if key.toList = k then vs else []
    | .f _ _ => []
  | .o _ key vs => values_map k _ vs
  | .f _ b => by cases b <;> rfl

section
variable {N : Type}

/-- What just-mr forwards, in parts. -/
def segs (c : Codec N) (f : Flags) (a : Args N) (cfg : Str) (m : OMap Str (Json N)) : List Seg :=
  [.o "-C" "--repository-config" (if f.config then some cfg else none).toList,
   .o "--local-build-root" "--local-build-root" (if f.buildRoot then a.root else none).toList,
   .o "--local-launcher" "--local-launcher"
     (if f.launch then (a.launcher.filter fun l => l ≠ defaultLauncher).map c.list else none).toList,
   .f "--log-append" (!a.logFiles.isEmpty),
   .o "-f" "--log-file" a.logFiles,
   .o "--log-limit" "--log-limit" ((a.logLimit.filter fun n => n ≠ defaultLogLevel).map c.number).toList,
   .o "--restrict-stderr-log-limit" "--restrict-stderr-log-limit" (a.restrictLimit.map c.number).toList,
   .f "--plain-log" a.plainLog,
   .o "-c" "--config" (if f.defines then a.justConfig.toList else []),
   .o "-D" "--defines" (if f.defines then (if m.items = [] then [] else [c.map m]) else []),
   .f "--compatible" (f.remote && a.compatible),
   .o "-r" "--remote-execution-address" (if f.remote then a.address.toList else []),
   .o "--remote-instance-name" "--remote-instance-name"
     (if f.remote then (if a.address = none then [] else a.instanceName.toList) else []),
   .o "--tls-ca-cert" "--tls-ca-cert" (if f.remote then a.ca.toList else []),
   .o "--tls-client-cert" "--tls-client-cert" (if f.remote then a.cert.toList else []),
   .o "--tls-client-key" "--tls-client-key" (if f.remote then a.key.toList else []),
   .o "--max-attempts" "--max-attempts" (if f.remote then (a.maxAttempts.map c.number).toList else []),
   .o "--initial-backoff-seconds" "--initial-backoff-seconds"
     (if f.remote then (a.initialBackoff.map c.number).toList else []),
   .o "--max-backoff-seconds" "--max-backoff-seconds"
     (if f.remote then (a.maxBackoff.map c.number).toList else []),
   .o "--endpoint-configuration" "--endpoint-configuration"
     (if f.dispatch then a.endpointConfig else none).toList,
   .o "-R" "--remote-serve-address" (if f.serve then a.serve else none).toList,
   .o "--remote-execution-property" "--remote-execution-property" (if f.remoteProps then a.properties else [])]

theorem forwarded_segs {c : Codec N} {f : Flags} {a : Args N} {cfg : Str} {l : List Str}
    (h : forwarded c f a cfg = some l) : ∃ m, (f.defines = true → overlayDefines a.defines OMap.empty = some m) ∧
      l = (segs c f a cfg m).flatMap Seg.args := by
  unfold forwarded at h
  obtain ⟨d, hd, rfl⟩ := Option.map_eq_some_iff.1 h
  have hlog : logArgs c a = [Seg.f "--log-append" (!a.logFiles.isEmpty), .o "-f" "--log-file" a.logFiles,
      .o "--log-limit" "--log-limit" ((a.logLimit.filter fun n => n ≠ defaultLogLevel).map c.number).toList,
      .o "--restrict-stderr-log-limit" "--restrict-stderr-log-limit" (a.restrictLimit.map c.number).toList,
      .f "--plain-log" a.plainLog].flatMap Seg.args := by
    unfold logArgs
    simp only [List.flatMap_cons, List.flatMap_nil, Seg.args, oarg_margs, List.append_nil, List.append_assoc]
    cases a.logFiles with
    | nil => rfl
    | cons x l => rfl
  have hrem : remoteArgs c f a = [Seg.f "--compatible" (f.remote && a.compatible),
      .o "-r" "--remote-execution-address" (if f.remote then a.address.toList else []),
      .o "--remote-instance-name" "--remote-instance-name"
        (if f.remote then (if a.address = none then [] else a.instanceName.toList) else []),
      .o "--tls-ca-cert" "--tls-ca-cert" (if f.remote then a.ca.toList else []),
      .o "--tls-client-cert" "--tls-client-cert" (if f.remote then a.cert.toList else []),
      .o "--tls-client-key" "--tls-client-key" (if f.remote then a.key.toList else []),
      .o "--max-attempts" "--max-attempts" (if f.remote then (a.maxAttempts.map c.number).toList else []),
      .o "--initial-backoff-seconds" "--initial-backoff-seconds"
        (if f.remote then (a.initialBackoff.map c.number).toList else []),
      .o "--max-backoff-seconds" "--max-backoff-seconds"
        (if f.remote then (a.maxBackoff.map c.number).toList else [])].flatMap Seg.args := by
    unfold remoteArgs
    simp only [List.flatMap_cons, List.flatMap_nil, Seg.args, oarg_margs, List.append_nil, List.append_assoc]
    cases f.remote with
    | false => rfl
    | true =>
      cases a.address with
      | none => rfl
      | some r => rfl
  have hdef : ∃ m, (f.defines = true → overlayDefines a.defines OMap.empty = some m) ∧
      d = [Seg.o "-c" "--config" (if f.defines then a.justConfig.toList else []),
        .o "-D" "--defines" (if f.defines then (if m.items = [] then [] else [c.map m]) else [])].flatMap
          Seg.args := by
    unfold definesArgs at hd
    cases hf : f.defines with
    | false =>
      rw [hf] at hd
      simp only [Bool.false_eq_true, if_false, Option.some.injEq] at hd
      exact ⟨OMap.empty, (fun e => nomatch e), hd.symm⟩
    | true =>
      rw [hf] at hd
      simp only [if_true] at hd
      obtain ⟨m, hm, rfl⟩ := Option.map_eq_some_iff.1 hd
      refine ⟨m, fun _ => hm, ?_⟩
      simp only [if_true, List.flatMap_cons, List.flatMap_nil, Seg.args, oarg_margs, List.append_nil]
      split <;> rfl
  obtain ⟨m, hm, rfl⟩ := hdef
  refine ⟨m, hm, ?_⟩
  rw [hlog, hrem]
  simp only [earlyArgs, serveArgs, segs, List.flatMap_cons, List.flatMap_nil, Seg.args, oarg_margs,
    List.append_nil, List.append_assoc]

/-- An option of this name is accepted by a subcommand of `just`. -/
def Accepts (sub : Str) (name : String) : Prop :=
  ∃ t o, justOpts sub = some t ∧ o ∈ t ∧ name.toList ∈ o.names

/-- The subcommands just-mr knows, without `version`. -/
def launched : List Str :=
  ["describe".toList, "analyse".toList, "build".toList, "install".toList, "rebuild".toList, "add-to-cas".toList,
    "install-cas".toList, "gc".toList]

theorem accepts_iff {sub : Str} {t : List Opt} (h : justOpts sub = some t) (name : String) :
    Accepts sub name ↔ (lookup t name.toList).isSome = true := by
  unfold lookup
  rw [Option.isSome_map, List.find?_isSome]
  constructor
  · rintro ⟨t', o, h1, h2, h3⟩
    rw [h] at h1
    cases h1
    exact ⟨o, h2, by simp [h3]⟩
  · rintro ⟨o, h1, h2⟩
    exact ⟨t, o, h, h1, by simpa using h2⟩

instance (sub : Str) (name : String) : Decidable (Accepts sub name) :=
  match h : justOpts sub with
  | none => isFalse (by rintro ⟨t, o, h1, _⟩; rw [h] at h1; cases h1)
  | some t => decidable_of_iff _ (accepts_iff h name).symm

/-- The events of a flag. -/
def HasFlag (k : String) (es : List Event) : Prop := .flag k.toList ∈ es

/-- The flags of a subcommand say which options are accepted. -/
structure Table (s : Str) (f : Flags) (t : List Opt) : Prop where
  opts : justOpts s = some t
  flags : assoc s knownSubcommands = some f
  config : f.config = decide (Accepts s "-C")
  buildRoot : f.buildRoot = decide (Accepts s "--local-build-root")
  launch : f.launch = decide (Accepts s "--local-launcher")
  defines : f.defines = decide (Accepts s "-D")
  file : f.defines = decide (Accepts s "-c")
  dispatch : f.dispatch = decide (Accepts s "--endpoint-configuration")
  serve : f.serve = decide (Accepts s "-R")
  props : f.remoteProps = decide (Accepts s "--remote-execution-property")
  remote : ∀ n ∈ ["--compatible", "-r", "--remote-instance-name", "--tls-ca-cert", "--tls-client-cert",
    "--tls-client-key", "--max-attempts", "--initial-backoff-seconds", "--max-backoff-seconds"],
    f.remote = decide (Accepts s n)
  graphs : ∀ n ∈ ["--dump-graph", "--dump-plain-graph", "--dump-artifacts-to-build"],
    f.remoteProps = decide (Accepts s n)
  artifacts : f.doesBuild = decide (Accepts s "--dump-artifacts")
  profile : f.remoteProps = true → Accepts s "--profile"
  log : ∀ n ∈ ["--log-append", "-f", "--log-limit", "--restrict-stderr-log-limit", "--plain-log"], Accepts s n

theorem table {s : Str} (h : s ∈ launched) : ∃ f t, Table s f t := by
  simp only [launched, List.mem_cons, List.not_mem_nil, or_false] at h
  rcases h with rfl | rfl | rfl | rfl | rfl | rfl | rfl | rfl
  all_goals
    exact ⟨_, _, ⟨rfl, rfl, by decide, by decide, by decide, by decide, by decide, by decide, by decide, by decide,
      by decide, by decide, by decide, by decide, by decide⟩⟩

theorem ok_segs {s : Str} (h : s ∈ launched) {f : Flags} {t : List Opt} (ht : justOpts s = some t)
    (hf : assoc s knownSubcommands = some f) (c : Codec N) (a : Args N) (cfg : Str) (m : OMap Str (Json N)) :
    ∀ x ∈ segs c f a cfg m, x.Ok t := by
  simp only [launched, List.mem_cons, List.not_mem_nil, or_false] at h
  rcases h with rfl | rfl | rfl | rfl | rfl | rfl | rfl | rfl
  all_goals
    cases ht
    cases hf
    unfold segs
    simp only [List.forall_mem_cons]
    refine ⟨?_, ?_, ?_, ?_, ?_, ?_, ?_, ?_, ?_, ?_, ?_, ?_, ?_, ?_, ?_, ?_, ?_, ?_, ?_, ?_, ?_, ?_,
      fun _ hx => absurd hx List.not_mem_nil⟩ <;> first | exact .inr rfl | exact .inl rfl

end

end Verif.MrRc
