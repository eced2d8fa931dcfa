import Verif.MrRc.Lemmas

/-!
# Properties of the rc files of just-mr (C98)

* `C98_overlay_partial`, `C98_distdirs_partial`, `C98_local_partial`: what the effective rc is, when files are
  overlaid.
* `C98_depends`, `C98_dump`: the file written by `--dump-rc` is self-contained.
* `C98_given`: the command line takes precedence.
* `C98_settings`: what is not given there is taken from the effective rc.

Locations are the subject of Verif.MrRc.Locations, examples and violations are in Verif.MrRc.Examples.
-/

namespace Verif.MrRc

open Verif

section
variable {N : Type}

theorem overlayAll_files {env : Env N} : ∀ {l : List (Json N)} {rc r : Rc N}, (∀ j ∈ l, Plain j) →
    overlayAll env l rc = some r → ∃ ds, Files env l ds ∧ r = ds.foldl merge rc
  | [], rc, r, _, h => ⟨[], .nil, (Option.some.inj h).symm⟩
  | j :: l, rc, r, hp, h => by
    have hp' : ∀ j ∈ l, Plain j := fun x hx => hp x (List.mem_cons_of_mem _ hx)
    simp only [overlayAll] at h
    cases he : readEntry env j with
    | none => rw [he] at h; cases h
    | some e =>
      have hi := readEntry_iff (hp j List.mem_cons_self) he
      rw [he] at h
      cases e with
      | none =>
        obtain ⟨ds, h1, h2⟩ := overlayAll_files hp' h
        exact ⟨ds, .ignored (fun p b hl => by have := (hi p b).2 hl; cases this) h1, h2⟩
      | some pb =>
        obtain ⟨p, b⟩ := pb
        have hl := (hi p b).1 rfl
        simp only at h
        cases hf : env.isFile p with
        | false =>
          rw [hf] at h
          obtain ⟨ds, h1, h2⟩ := overlayAll_files hp' h
          exact ⟨ds, .missing hl hf h1, h2⟩
        | true =>
          rw [hf] at h
          simp only [if_true] at h
          unfold readFile at h
          cases hc : env.content p with
          | none => rw [hc] at h; cases h
          | some c =>
            rw [hc] at h
            cases c with
            | obj o =>
              simp only at h
              obtain ⟨ds, h1, h2⟩ := overlayAll_files hp' h
              exact ⟨mk o :: ds, .file hl hf hc h1, h2⟩
            | _ => cases h

/-- The rc files: the one given, and those to be overlaid. -/
def RcFiles (env : Env N) (a : Args N) (base : Rc N) (ds : List (Rc N)) : Prop :=
  obtain env a = some base ∧
    ((field "rc files".toList base = .null ∧ ds = []) ∨
      ∃ l, base.find "rc files".toList = some (.arr l) ∧ Files env l ds)

/-- The locations of the files to be overlaid have one of the three known roots. -/
def PlainFiles (env : Env N) (a : Args N) : Prop :=
  ∀ base l, obtain env a = some base → base.find "rc files".toList = some (.arr l) → ∀ j ∈ l, Plain j

theorem effective_files {env : Env N} {a : Args N} {rc : Rc N} (hp : PlainFiles env a)
    (h : effective env a = some rc) : ∃ base ds, RcFiles env a base ds ∧ rc = ds.foldl merge base := by
  unfold effective at h
  cases hb : obtain env a with
  | none => rw [hb] at h; cases h
  | some base =>
    rw [hb] at h
    simp only at h
    cases hf : field "rc files".toList base with
    | null =>
      rw [hf] at h
      exact ⟨base, [], ⟨hb, .inl ⟨hf, rfl⟩⟩, (Option.some.inj h).symm⟩
    | arr l =>
      rw [hf] at h
      have hl : base.find "rc files".toList = some (.arr l) := by
        unfold field at hf
        cases hx : base.find "rc files".toList with
        | none => rw [hx] at hf; cases hf
        | some v => rw [hx] at hf; rw [Option.getD_some] at hf; rw [hf]
      obtain ⟨ds, h1, h2⟩ := overlayAll_files (hp base l hb hl) h
      exact ⟨base, ds, ⟨hb, .inr ⟨l, hl, h1⟩⟩, h2⟩
    | bool _ => rw [hf] at h; cases h
    | num _ => rw [hf] at h; cases h
    | str _ => rw [hf] at h; cases h
    | obj _ => rw [hf] at h; cases h

/-- If there is no file at the path given on the command line, or it does not have the right form, just-mr stops. -/
theorem C98_missing {env : Env N} {a : Args N} {p : Str} (hn : a.norc = false) (hp : a.rcPath = some p)
    (h : env.isFile p = false ∨ ∀ l, env.content p ≠ some (.obj l)) : readRc env a = none := by
  have : obtain env a = none := by
    unfold obtain
    simp only [hn, Bool.false_eq_true, if_false, hp]
    split
    · next hf =>
      have h := h.resolve_left (by rw [hf]; simp)
      unfold readFile
      split
      · next l e => exact absurd e (h l)
      · rfl
    · rfl
  simp only [readRc, effective, this, Option.bind_none]

/-- For most fields, the last file having it decides.  Partial: locations with an unknown root are taken
relative to the working directory (V81). -/
theorem C98_overlay_partial {env : Env N} {a : Args N} {rc : Rc N} (hp : PlainFiles env a)
    (h : effective env a = some rc) : ∃ base ds, RcFiles env a base ds ∧
      ∀ k, k ≠ "distdirs".toList → k ≠ "just args".toList → k ≠ "just files".toList →
        k ≠ "invocation log".toList → ∀ v, rc.find k = some v ↔ Last k (base :: ds) v := by
  obtain ⟨base, ds, h1, h2⟩ := effective_files hp h
  refine ⟨base, ds, h1, ?_⟩
  intro k k1 k2 k3 k4 v
  rw [h2]
  exact last_foldl k merge (fun b d => merge_plain b d (by simp only [accumulating, List.mem_singleton]; exact k1)
    (by
      simp only [localMerge, List.mem_cons, List.not_mem_nil, or_false, not_or]; exact ⟨k2, k3, k4⟩)) v ds base

/-- The distdirs of all files are taken, those of files overlaid later come first. -/
theorem C98_distdirs_partial {env : Env N} {a : Args N} {rc : Rc N} (hp : PlainFiles env a)
    (h : effective env a = some rc) : ∃ base ds, RcFiles env a base ds ∧
      elems (field "distdirs".toList rc) =
        ((base :: ds).reverse.map fun d => elems (field "distdirs".toList d)).flatten := by
  obtain ⟨base, ds, h1, h2⟩ := effective_files hp h
  refine ⟨base, ds, h1, ?_⟩
  rw [h2]
  clear h1 h2 h hp
  induction ds generalizing base with
  | nil => simp
  | cons d ds ih =>
    rw [List.foldl_cons, ih]
    simp only [List.reverse_cons, List.append_assoc, List.map_append, List.map_cons, List.map_nil,
      List.flatten_append, List.flatten_cons, List.flatten_nil, List.append_nil]
    congr 1
    unfold field
    rw [merge_distdirs]
    simp [elems, field]

/-- The arguments and files for `just` and the settings of the invocation log are merged entry by entry. -/
theorem C98_local_partial {env : Env N} {a : Args N} {rc : Rc N} (hp : PlainFiles env a)
    (h : effective env a = some rc) : ∃ base ds, RcFiles env a base ds ∧
      ∀ k, (k = "just args".toList ∨ k = "just files".toList ∨ k = "invocation log".toList) → ∀ s v,
        get s (field k rc) = some v ↔
          Last s ((base :: ds).map fun d => entries (field k d)) v := by
  obtain ⟨base, ds, h1, h2⟩ := effective_files hp h
  refine ⟨base, ds, h1, ?_⟩
  intro k hk s v
  have hk' : k ∈ localMerge := by
    simp only [localMerge, List.mem_cons, List.not_mem_nil, or_false]; exact hk
  have hg : ∀ j : Json N, get s j = (entries j).find s := by
    intro j
    cases j <;> simp [get, entries]
  rw [hg, h2, List.map_cons]
  clear h1 h2 h hp
  induction ds using List.reverseRecOn with
  | nil =>
    have := last_append s [] (entries (field k base)) v
    rw [List.nil_append] at this
    simp only [List.foldl_nil, List.map_nil]
    rw [this]
    constructor
    · exact .inl
    · rintro (h | ⟨_, h⟩)
      · exact h
      · exact absurd h (last_nil s v)
  | append_singleton ds d ih =>
    rw [List.foldl_append, List.foldl_cons, List.foldl_nil, merge_local_find _ _ hk', List.map_append,
      List.map_cons, List.map_nil, ← List.cons_append, last_append]
    refine Iff.trans ?_ (or_congr Iff.rfl (and_congr Iff.rfl ih))
    cases (entries (field k d)).find s <;> simp

/-! ## Self-contained rc files -/

/-- The settings do not depend on the field `"rc files"`; in particular its value in overlaying files is
ignored. -/
theorem C98_depends (env : Env N) (a : Args N) {rc rc' : Rc N}
    (h : ∀ k, k ≠ "rc files".toList → rc.find k = rc'.find k) : applyRc env a rc = applyRc env a rc' := by
  have hf : ∀ k, k ≠ "rc files".toList → field k rc = field k rc' := by
    intro k hk
    unfold field
    rw [h k hk]
  unfold applyRc
  rw [hf "local build root".toList (by decide), hf "checkout locations".toList (by decide),
    hf "distdirs".toList (by decide), hf "just".toList (by decide), hf "git".toList (by decide),
    hf "just files".toList (by decide), hf "just args".toList (by decide),
    hf "remote-execution properties".toList (by decide), hf "max attempts".toList (by decide),
    hf "initial backoff seconds".toList (by decide), hf "max backoff seconds".toList (by decide),
    hf "local launcher".toList (by decide), hf "log limit".toList (by decide),
    hf "restrict stderr log limit".toList (by decide), hf "log files".toList (by decide),
    hf "remote execution".toList (by decide), hf "remote serve".toList (by decide),
    hf "authentication".toList (by decide), hf "absent".toList (by decide),
    hf "invocation log".toList (by decide), hf "config lookup order".toList (by decide)]

/-- The arguments when another rc file is used. -/
def Args.withRc (a : Args N) (p : Str) : Args N := { a with rcPath := some p, norc := false }

theorem assoc_filter_ne {V : Type} (k x : Str) : ∀ l : List (Str × V),
    assoc k (l.filter fun p => p.1 ≠ x) = if k = x then none else assoc k l
  | [] => by simp [assoc]
  | (a, v) :: l => by
    have ih := assoc_filter_ne k x l
    by_cases h : a = x
    · subst h
      rw [List.filter_cons_of_neg (by simp), ih]
      by_cases hk : k = a
      · simp [hk]
      · simp [hk, assoc]
    · rw [List.filter_cons_of_pos (by simp [h])]
      simp only [assoc]
      rw [ih]
      by_cases hk : k = a
      · subst hk; simp [h]
      · simp [hk]

theorem dumped_find (rc : Rc N) : ∃ m : Rc N, dumped rc = .obj m.items ∧
    ∀ k, m.find k = if k = "rc files".toList then none else rc.find k := by
  refine ⟨⟨rc.items.filter fun p => p.1 ≠ "rc files".toList, ?_⟩, rfl, ?_⟩
  · exact List.Pairwise.filter _ rc.asc
  · intro k
    exact assoc_filter_ne k _ rc.items

theorem applyRc_withRc (env : Env N) (a : Args N) (p : Str) (rc : Rc N) :
    applyRc env (a.withRc p) rc = (applyRc env a rc).map fun r => r.withRc p := by
  unfold applyRc
  simp only [Args.withRc, Option.bind_eq_bind]
  simp only [Option.map_bind, Function.comp_def, Option.map_some]

/-- The file written by `--dump-rc` is self-contained: used in place of the rc file, it gives the same
settings. -/
theorem C98_dump {env : Env N} {a a' : Args N} {rc : Rc N} {p : Str} (he : effective env a = some rc)
    (h : readRc env a = some a') (hf : env.isFile p = true) (hc : env.content p = some (dumped rc)) :
    readRc env (a.withRc p) = some (a'.withRc p) := by
  obtain ⟨m, hm, hk⟩ := dumped_find rc
  have h1 : effective env (a.withRc p) = some m := by
    have ho : obtain env (a.withRc p) = some m := by
      simp only [obtain, Args.withRc, Bool.false_eq_true, if_false]
      rw [if_pos hf]
      unfold readFile
      rw [hc, hm]
      simp only
      rw [mk_items]
    unfold effective
    rw [ho]
    simp only
    have : field "rc files".toList m = .null := by
      unfold field
      rw [hk, if_pos rfl]
      rfl
    rw [this]
  unfold readRc at h ⊢
  rw [he] at h
  rw [h1]
  simp only [Option.bind_some] at h ⊢
  rw [applyRc_withRc, C98_depends env a (rc' := rc) (fun k hkn => by rw [hk, if_neg hkn]), h]
  rfl

/-! ## Settings -/

/-- What reading gives, step by step. -/
theorem applyRc_inv {env : Env N} {a a' : Args N} {rc : Rc N} (h : applyRc env a rc = some a') :
    ∃ files jargs justArgs properties launcher logFiles remote serveMap auth log found,
      orElse a.root (optLocation env (field "local build root".toList rc)) = some a'.root ∧
      orElse a.checkout (readCheckout env (field "checkout locations".toList rc)) = some a'.checkout ∧
      readDistdirs env (field "distdirs".toList rc) = some a'.distdirs ∧
      orElse a.just (optLocation env (field "just".toList rc)) = some a'.just ∧
      orElse a.git (optLocation env (field "git".toList rc)) = some a'.git ∧
      optMap (field "just files".toList rc) = some files ∧
      optLocationList env (field "config".toList files) = some a'.justConfig ∧
      optLocationList env (field "endpoint-configuration".toList files) = some a'.endpointConfig ∧
      optMap (field "just args".toList rc) = some jargs ∧
      readJustArgs jargs.items = some justArgs ∧ a'.justArgs = mk justArgs ∧
      optStrings (field "remote-execution properties".toList rc) = some properties ∧
      a'.properties = properties.getD [] ∧
      orElse a.maxAttempts (optNumber env.unsigned (field "max attempts".toList rc)) =
        some a'.maxAttempts ∧
      orElse a.initialBackoff (optNumber env.unsigned (field "initial backoff seconds".toList rc)) =
        some a'.initialBackoff ∧
      orElse a.maxBackoff (optNumber env.unsigned (field "max backoff seconds".toList rc)) =
        some a'.maxBackoff ∧
      orElse a.launcher (optStrings (field "local launcher".toList rc)) = some launcher ∧
      a'.launcher = some (launcher.getD defaultLauncher) ∧
      orElse a.logLimit (optNumber env.level (field "log limit".toList rc)) = some a'.logLimit ∧
      orElse a.restrictLimit (optNumber env.level (field "restrict stderr log limit".toList rc)) =
        some a'.restrictLimit ∧
      readLogFiles env (field "log files".toList rc) = some logFiles ∧
      a'.logFiles = a.logFiles ++ logFiles ∧
      optMap (field "remote execution".toList rc) = some remote ∧
      orElse a.address (optString (field "address".toList remote)) = some a'.address ∧
      orElse a.instanceName (optString (field "instance name".toList remote)) = some a'.instanceName ∧
      readCompatible a.compatible (field "compatible".toList remote) = some a'.compatible ∧
      optMap (field "remote serve".toList rc) = some serveMap ∧
      orElse a.serve (optString (field "address".toList serveMap)) = some a'.serve ∧
      optMap (field "authentication".toList rc) = some auth ∧
      orElse a.ca (optLocation env (field "ca cert".toList auth)) = some a'.ca ∧
      orElse a.cert (optLocation env (field "client cert".toList auth)) = some a'.cert ∧
      orElse a.key (optLocation env (field "client key".toList auth)) = some a'.key ∧
      orElse a.absentFile (readAbsent env (field "absent".toList rc)) = some a'.absentFile ∧
      optMap (field "invocation log".toList rc) = some log ∧
      readInvocation env log = some a'.invocation ∧
      readLookup env (field "config lookup order".toList rc) = some found ∧
      a'.configFile = found.map Prod.fst ∧ a'.setupRoot = (found.map Prod.snd).or a.setupRoot ∧
      a'.repositoryConfig = a.repositoryConfig ∧ a'.explicitDistdirs = a.explicitDistdirs ∧
      a'.defines = a.defines ∧ a'.plainLog = a.plainLog ∧ a'.subcommand = a.subcommand ∧
      a'.extra = a.extra := by
  simp only [applyRc, Option.bind_eq_bind, Option.bind_eq_some_iff, Option.some.injEq] at h
  obtain ⟨root, h1, checkout, h2, distdirs, h3, just, h4, git, h5, files, h6, justConfig, h7, endpointConfig, h8,
    jargs, h9, justArgs, h10, properties, h11, maxAttempts, h12, initialBackoff, h13, maxBackoff, h14,
    launcher, h15, logLimit, h16, restrictLimit, h17, logFiles, h18, remote, h19, address, h20,
    instanceName, h21, compatible, h22, serveMap, h23, serve, h24, auth, h25, ca, h26, cert, h27, key, h28,
    absentFile, h29, log, h30, invocation, h31, found, h32, rfl⟩ := h
  exact ⟨files, jargs, justArgs, properties, launcher, logFiles, remote, serveMap, auth, log, found,
    h1, h2, h3, h4, h5, h6, h7, h8, h9, h10, rfl, h11, rfl, h12, h13, h14, h15, rfl, h16, h17, h18, rfl,
    h19, h20, h21, h22, h23, h24, h25, h26, h27, h28, h29, h30, h31, h32, rfl, rfl, rfl, rfl, rfl, rfl,
    rfl, rfl⟩

theorem orElse_some {α : Type} {x : α} {o : Option (Option α)} {r : Option α}
    (h : orElse (some x) o = some r) : r = some x := (Option.some.inj h).symm

/-- The command line takes precedence: what is given there is used, whatever the rc files say. -/
theorem C98_given {env : Env N} {a a' : Args N} (h : readRc env a = some a') :
    (∀ p, a.root = some p → a'.root = some p) ∧
    (∀ p, a.checkout = some p → a'.checkout = some p) ∧
    (∀ p, a.just = some p → a'.just = some p) ∧
    (∀ p, a.git = some p → a'.git = some p) ∧
    (∀ p, a.absentFile = some p → a'.absentFile = some p) ∧
    (∀ n, a.maxAttempts = some n → a'.maxAttempts = some n) ∧
    (∀ n, a.initialBackoff = some n → a'.initialBackoff = some n) ∧
    (∀ n, a.maxBackoff = some n → a'.maxBackoff = some n) ∧
    (∀ l, a.launcher = some l → a'.launcher = some l) ∧
    (∀ n, a.logLimit = some n → a'.logLimit = some n) ∧
    (∀ n, a.restrictLimit = some n → a'.restrictLimit = some n) ∧
    (∀ s, a.address = some s → a'.address = some s) ∧
    (∀ s, a.instanceName = some s → a'.instanceName = some s) ∧
    (∀ s, a.serve = some s → a'.serve = some s) ∧
    (∀ p, a.ca = some p → a'.ca = some p) ∧
    (∀ p, a.cert = some p → a'.cert = some p) ∧
    (∀ p, a.key = some p → a'.key = some p) ∧
    (a.compatible = true → a'.compatible = true) ∧
    (∃ l, a'.logFiles = a.logFiles ++ l) ∧
    (∀ p, a.repositoryConfig = some p → (complete env a').configFile = some p) := by
  unfold readRc at h
  obtain ⟨rc, _, h⟩ := Option.bind_eq_some_iff.1 h
  obtain ⟨files, jargs, justArgs, properties, launcher, logFiles, remote, serveMap, auth, log, found,
    h1, h2, h3, h4, h5, h6, h7, h8, h9, h10, hja, h11, hpr, h12, h13, h14, h15, hla, h16, h17, h18, hlf,
    h19, h20, h21, h22, h23, h24, h25, h26, h27, h28, h29, h30, h31, h32, hcf, hsr, hrc, hed, hdf, hpl, hsub,
    hex⟩ := applyRc_inv h
  refine ⟨?_, ?_, ?_, ?_, ?_, ?_, ?_, ?_, ?_, ?_, ?_, ?_, ?_, ?_, ?_, ?_, ?_, ?_, ⟨logFiles, hlf⟩, ?_⟩
  · intro x e; rw [e] at h1; exact orElse_some h1
  · intro x e; rw [e] at h2; exact orElse_some h2
  · intro x e; rw [e] at h4; exact orElse_some h4
  · intro x e; rw [e] at h5; exact orElse_some h5
  · intro x e; rw [e] at h29; exact orElse_some h29
  · intro x e; rw [e] at h12; exact orElse_some h12
  · intro x e; rw [e] at h13; exact orElse_some h13
  · intro x e; rw [e] at h14; exact orElse_some h14
  · intro x e; rw [e] at h15; rw [hla, orElse_some h15]; rfl
  · intro x e; rw [e] at h16; exact orElse_some h16
  · intro x e; rw [e] at h17; exact orElse_some h17
  · intro x e; rw [e] at h20; exact orElse_some h20
  · intro x e; rw [e] at h21; exact orElse_some h21
  · intro x e; rw [e] at h24; exact orElse_some h24
  · intro x e; rw [e] at h26; exact orElse_some h26
  · intro x e; rw [e] at h27; exact orElse_some h27
  · intro x e; rw [e] at h28; exact orElse_some h28
  · intro e; rw [e] at h22; exact (Option.some.inj h22).symm
  · intro x e
    rw [e] at hrc
    simp only [complete, hrc]

/-! ### What is not given -/

theorem field_eq {k : Str} {m : Rc N} {v : Json N} (hv : v ≠ .null) : field k m = v ↔ m.find k = some v := by
  unfold field
  constructor
  · intro h
    cases hx : m.find k with
    | none => rw [hx] at h; exact absurd h.symm hv
    | some w => rw [hx, Option.getD_some] at h; rw [h]
  · intro h; rw [h, Option.getD_some]

theorem optString_iff {j : Json N} {r : Option Str} (h : optString j = some r) (s : Str) :
    r = some s ↔ j = .str s := by
  cases j <;> simp_all [optString]
  · intro e; subst h; cases e
  · constructor
    · intro e; subst h; exact Option.some.inj e
    · intro e; rw [← h, e]

theorem optNumber_iff {f : N → Nat} {j : Json N} {r : Option Nat} (h : optNumber f j = some r) (n : Nat) :
    r = some n ↔ ∃ x, j = .num x ∧ n = f x := by
  cases j with
  | null => simp only [optNumber, Option.some.injEq] at h; subst h; simp
  | num x =>
    simp only [optNumber, Option.some.injEq] at h; subst h
    constructor
    · intro e; exact ⟨x, rfl, (Option.some.inj e).symm⟩
    · rintro ⟨y, e, rfl⟩; cases e; rfl
  | _ => simp [optNumber] at h

theorem strings_iff : ∀ {l : List (Json N)} {r : List Str}, strings l = some r ↔ l = r.map Json.str
  | [], r => by cases r <;> simp [strings]
  | .str s :: l, r => by
    cases r with
    | nil =>
      simp only [strings, List.map_nil, reduceCtorEq, iff_false]
      cases strings l <;> simp
    | cons t r =>
      simp only [strings, Option.map_eq_some_iff, List.map_cons, List.cons.injEq, Json.str.injEq]
      constructor
      · rintro ⟨x, hx, rfl, rfl⟩; exact ⟨rfl, strings_iff.1 hx⟩
      · rintro ⟨rfl, h⟩; exact ⟨r, strings_iff.2 h, rfl, rfl⟩
  | .null :: _, r => by cases r <;> simp [strings]
  | .bool _ :: _, r => by cases r <;> simp [strings]
  | .num _ :: _, r => by cases r <;> simp [strings]
  | .arr _ :: _, r => by cases r <;> simp [strings]
  | .obj _ :: _, r => by cases r <;> simp [strings]

theorem optStrings_iff {j : Json N} {r : Option (List Str)} (h : optStrings j = some r) :
    (r = none ∧ j = .null) ∨ ∃ l, r = some l ∧ j = .arr (l.map Json.str) := by
  cases j with
  | null => exact .inl ⟨(Option.some.inj h).symm, rfl⟩
  | arr l =>
    simp only [optStrings, Option.map_eq_some_iff] at h
    obtain ⟨x, hx, rfl⟩ := h
    exact .inr ⟨x, rfl, by rw [strings_iff.1 hx]⟩
  | _ => cases h

theorem optMap_find {j : Json N} {m : OMap Str (Json N)} (h : optMap j = some m) (k : Str) :
    m.find k = get k j := by
  cases j with
  | null => simp only [optMap, Option.some.injEq] at h; subst h; rfl
  | obj l => simp only [optMap, Option.some.injEq] at h; subst h; rfl
  | _ => cases h

theorem readJustArgs_keys : ∀ {l : List (Str × Json N)} {r : List (Str × List Str)}, readJustArgs l = some r →
    l = r.map fun p => (p.1, Json.arr (p.2.map Json.str))
  | [], r, h => by simp only [readJustArgs, Option.some.injEq] at h; subst h; rfl
  | (c, j) :: t, r, h => by
    cases j with
    | arr l =>
      simp only [readJustArgs] at h
      cases hs : strings l with
      | none => rw [hs] at h; cases h
      | some as =>
        cases ht : readJustArgs t with
        | none => rw [hs, ht] at h; cases h
        | some r' =>
          rw [hs, ht] at h
          simp only [Option.some.injEq] at h
          subst h
          rw [List.map_cons, ← readJustArgs_keys ht, strings_iff.1 hs]
    | _ => cases h

theorem mk_map_find {V W : Type} (f : V → W) (k : Str) : ∀ (l : List (Str × V)),
    (mk (l.map fun p => (p.1, f p.2))).find k = ((mk l).find k).map f := by
  intro l
  induction l using List.reverseRecOn with
  | nil => rfl
  | append_singleton l p ih =>
    unfold mk at ih ⊢
    rw [List.map_append, List.foldl_append, List.foldl_append, List.map_cons, List.map_nil, List.foldl_cons,
      List.foldl_nil, List.foldl_cons, List.foldl_nil, OMap.find_assign, OMap.find_assign]
    by_cases h : k = p.1
    · simp [h]
    · simp only [h, if_false]
      exact ih

/-- What is not given on the command line is taken from the effective rc, and defaults are used otherwise. -/
theorem C98_settings {env : Env N} {a a' : Args N} {rc : Rc N} (he : effective env a = some rc)
    (h : readRc env a = some a') :
    (a.address = none → ∀ s, a'.address = some s ↔
      get "address".toList (field "remote execution".toList rc) = some (.str s)) ∧
    (a.instanceName = none → ∀ s, a'.instanceName = some s ↔
      get "instance name".toList (field "remote execution".toList rc) = some (.str s)) ∧
    (a'.compatible = true ↔ a.compatible = true ∨
      get "compatible".toList (field "remote execution".toList rc) = some (.bool true)) ∧
    (a.serve = none → ∀ s, a'.serve = some s ↔
      get "address".toList (field "remote serve".toList rc) = some (.str s)) ∧
    (a.maxAttempts = none → ∀ n, a'.maxAttempts = some n ↔
      ∃ x, rc.find "max attempts".toList = some (.num x) ∧ n = env.unsigned x) ∧
    (a.initialBackoff = none → ∀ n, a'.initialBackoff = some n ↔
      ∃ x, rc.find "initial backoff seconds".toList = some (.num x) ∧ n = env.unsigned x) ∧
    (a.maxBackoff = none → ∀ n, a'.maxBackoff = some n ↔
      ∃ x, rc.find "max backoff seconds".toList = some (.num x) ∧ n = env.unsigned x) ∧
    (a.logLimit = none → ∀ n, a'.logLimit = some n ↔
      ∃ x, rc.find "log limit".toList = some (.num x) ∧ n = env.level x) ∧
    (a.restrictLimit = none → ∀ n, a'.restrictLimit = some n ↔
      ∃ x, rc.find "restrict stderr log limit".toList = some (.num x) ∧ n = env.level x) ∧
    (a.launcher = none → ∃ l, a'.launcher = some l ∧
      ((field "local launcher".toList rc = .null ∧ l = ["env".toList, "--".toList]) ∨
        rc.find "local launcher".toList = some (.arr (l.map Json.str)))) ∧
    ((field "remote-execution properties".toList rc = .null ∧ a'.properties = []) ∨
      rc.find "remote-execution properties".toList = some (.arr (a'.properties.map Json.str))) ∧
    (∀ c as, a'.justArgs.find c = some as ↔
      get c (field "just args".toList rc) = some (.arr (as.map Json.str))) := by
  unfold readRc at h
  rw [he, Option.bind_some] at h
  obtain ⟨files, jargs, justArgs, properties, launcher, logFiles, remote, serveMap, auth, log, found,
    h1, h2, h3, h4, h5, h6, h7, h8, h9, h10, hja, h11, hpr, h12, h13, h14, h15, hla, h16, h17, h18, hlf,
    h19, h20, h21, h22, h23, h24, h25, h26, h27, h28, h29, h30, h31, h32, hcf, hsr, hrc, hed, hdf, hpl, hsub,
    hex⟩ := applyRc_inv h
  have num : ∀ {f : N → Nat} {k : Str} {g r : Option Nat}, orElse g (optNumber f (field k rc)) = some r →
      g = none → ∀ n, r = some n ↔ ∃ x, rc.find k = some (.num x) ∧ n = f x := by
    intro f k g r hr hg n
    rw [hg] at hr
    rw [optNumber_iff hr n]
    constructor
    · rintro ⟨x, hx, rfl⟩; exact ⟨x, (field_eq (by intro e; cases e)).1 hx, rfl⟩
    · rintro ⟨x, hx, rfl⟩; exact ⟨x, (field_eq (by intro e; cases e)).2 hx, rfl⟩
  have str : ∀ {k s : Str} {m : OMap Str (Json N)} {j : Json N} {g r : Option Str}, optMap j = some m →
      orElse g (optString (field k m)) = some r → g = none → (r = some s ↔ get k j = some (.str s)) := by
    intro k s m j g r hm hr hg
    rw [hg] at hr
    rw [optString_iff hr s, ← optMap_find hm]
    exact field_eq (by intro e; cases e)
  refine ⟨fun hg s => str h19 h20 hg, fun hg s => str h19 h21 hg, ?_, fun hg s => str h23 h24 hg, num h12,
    num h13, num h14, num h16, num h17, ?_, ?_, ?_⟩
  · rw [← optMap_find h19]
    cases hc : a.compatible with
    | true => rw [hc] at h22; simp [readCompatible] at h22; simp [h22]
    | false =>
      rw [hc] at h22
      simp only [readCompatible, Bool.false_eq_true, if_false] at h22
      simp only [Bool.false_eq_true, false_or]
      rw [← field_eq (k := "compatible".toList) (by intro e; cases e)]
      cases hj : field "compatible".toList remote with
      | null => rw [hj] at h22; simp at h22; simp [h22]
      | bool b => rw [hj] at h22; simp at h22; simp [h22]
      | num _ => rw [hj] at h22; simp at h22
      | str _ => rw [hj] at h22; simp at h22
      | arr _ => rw [hj] at h22; simp at h22
      | obj _ => rw [hj] at h22; simp at h22
  · intro hg
    rw [hg] at h15
    rcases optStrings_iff h15 with ⟨e, hn⟩ | ⟨l, e, hn⟩
    · exact ⟨_, by rw [hla, e]; rfl, .inl ⟨hn, rfl⟩⟩
    · exact ⟨l, by rw [hla, e]; rfl, .inr ((field_eq (by intro e; cases e)).1 hn)⟩
  · rcases optStrings_iff h11 with ⟨e, hn⟩ | ⟨l, e, hn⟩
    · exact .inl ⟨hn, by rw [hpr, e]; rfl⟩
    · refine .inr ((field_eq (by intro e; cases e)).1 ?_)
      rw [hn, hpr, e]; rfl
  · intro c as
    have hk := readJustArgs_keys h10
    have hf : jargs.find c = ((mk justArgs).find c).map fun l => Json.arr (l.map Json.str) := by
      rw [← mk_map_find, ← hk, mk_items]
    rw [← optMap_find h9, hf, hja]
    constructor
    · intro e; rw [e]; rfl
    · intro e
      obtain ⟨l, h1, h2⟩ := Option.map_eq_some_iff.1 e
      rw [h1]
      have : l.map (Json.str (N := N)) = as.map Json.str := by
        injection h2
      rw [(List.map_injective_iff.2 (fun x y e => by injection e)) this]

end

end Verif.MrRc
