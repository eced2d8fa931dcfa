import Verif.MrConfig.JustLemmas

/-!
# C96: `just` sees the repositories as described
-/

namespace Verif.MrConfig

open Verif

section
variable {N : Type} {env : Env N} {git : Str → Str → Bool} {args : Args}
  {config repos : List (Str × Json N)} {out : Json N} {m : Str} {ja : JustArgs}

/-- The configuration written, as `just` reads it. -/
theorem out_shape (hr : field "repositories".toList config = .obj repos) (hm : MainIs args config repos m)
    (hall : args.all = false) (h : generate env args config = .ok out) (hja : ja.main = none) :
    ∃ top rs, out = .obj top ∧ assoc "repositories".toList top = some (.obj rs) ∧ Ascending rs ∧
      readMain ja top rs = some m ∧
      ∀ n j, assoc n rs = some j → ∃ c, j = .obj c ∧ Entry out n c := by
  obtain ⟨given, inv, es, h1, h2, h3, hout⟩ := generate_ok hr hm h
  obtain ⟨i1, i2⟩ := involved_ok hall h2
  obtain ⟨_, _, _, p3, _⟩ := populate_some h3
  have hmi : m ∈ inv.toInclude := (i1 m).mpr .main
  have hne : es ≠ [] := by
    rintro rfl
    rw [← p3] at hmi
    exact absurd hmi List.not_mem_nil
  obtain ⟨top, t1, t2, t3⟩ := output_shape (given := given) hne
  have hent : ∀ n j, assoc n (toObj es) = some j → ∃ c, j = .obj c ∧ Entry out n c := by
    intro n j hj
    have hni : n ∈ inv.toInclude := by
      rw [← p3]
      obtain ⟨_, _, _, _, q4⟩ := populate_some h3
      rw [toObj_find (f := fun x => finish repos _ _ x) q4] at hj
      by_contra hc
      rw [if_neg hc] at hj; cases hj
    obtain ⟨c, _, hc, _⟩ := entry_of (given := given) h3
      (fun x hx => (i2 x).mpr (Or.inl ((i1 x).mp hx))) hni
    have := output_entry.mp hc
    rw [hj] at this; cases this
    exact ⟨_, rfl, hout ▸ hc⟩
  refine ⟨top, toObj es, hout.trans t1, t2, toObj_asc es, ?_, hent⟩
  simp only [readMain, hja]
  rw [t3]
  have htm := (theMain_iff h1 m).mpr hm
  cases given with
  | some g => simp only [theMain, Option.some.injEq] at htm; subst htm; rfl
  | none =>
    -- without a main repository given, the first one of the configuration is the first one of all
    simp only [Option.map_none, Option.some.injEq]
    have hmin : m ∈ repos.map Prod.fst ∧ ∀ k ∈ repos.map Prod.fst, m ≤ k := by
      rcases hm with hm | ⟨hm, hm'⟩ | ⟨_, _, hm⟩
      · simp only [givenMain, hm] at h1; cases h1
      · simp only [givenMain, hm, hm'] at h1; cases h1
      · exact hm
    obtain ⟨c, _, hc, _⟩ := entry_of (given := none) h3
      (fun x hx => (i2 x).mpr (Or.inl ((i1 x).mp hx))) hmi
    have hmem := assoc_some_mem (output_entry.mp hc)
    have hasc := toObj_asc es
    cases hto : toObj es with
    | nil => rw [hto] at hmem; exact absurd hmem List.not_mem_nil
    | cons e l =>
      obtain ⟨k, j⟩ := e
      simp only [List.head?_cons, Option.map_some, Option.getD_some]
      rw [hto] at hmem hasc
      obtain ⟨cj, rfl, hcj⟩ := hent k j (by rw [hto]; simp only [assoc, if_true])
      by_contra hkm
      have hki := entry_include (given := none) h3 (hout ▸ hcj)
      obtain ⟨_, c0, _, hs, _⟩ := entry_of (given := none) h3
        (fun x hx => (i2 x).mpr (Or.inl ((i1 x).mp hx))) hki
      obtain ⟨lk, _, _, hlk, _⟩ := setupRepo_given (by
        split
        · intro e; exact hkm (Option.some.inj e).symm
        · intro e; cases e) hs
      have hle := hmin.2 k (List.mem_map.mpr ⟨_, assoc_some_mem hlk, rfl⟩)
      rcases List.mem_cons.mp hmem with e | hmem
      · cases e; exact hkm rfl
      · have := (List.pairwise_cons.mp hasc).1 _ hmem
        exact absurd this (not_lt.mpr hle)

/-- Reading, in terms of the entries. -/
theorem read_entries (hr : field "repositories".toList config = .obj repos) (hm : MainIs args config repos m)
    (hall : args.all = false) (h : generate env args config = .ok out) (hja : ja.main = none) :
    ∃ names : List Str, (∀ n, n ∈ names ↔ Needed repos m n) ∧
      ((∀ n c, Entry out n c → ∃ i, readRepo git ja names (decide (n = m)) c = some i) →
        ∃ infos, justRead git ja out = some (m, infos)) ∧
      ∀ m' infos, justRead git ja out = some (m', infos) → m' = m ∧
        (∀ n i, assoc n infos = some i → Needed repos m n) ∧
        ∀ n c, Entry out n c → ∃ i, readRepo git ja names (decide (n = m)) c = some i ∧
          assoc n infos = some i := by
  obtain ⟨top, rs, hout, hrs, hasc, hmain, hent⟩ := out_shape hr hm hall h hja
  have hback : ∀ n c, Entry out n c → assoc n rs = some (.obj c) := by
    rintro n c ⟨top', rs', e1, e2, e3⟩
    rw [hout] at e1; cases e1
    have : rs' = rs := by
      simp only [field, hrs, Option.getD_some, Json.obj.injEq] at e2
      exact e2.symm
    rw [← this]; exact e3
  obtain ⟨cm, hcm⟩ := (C95_exact hr hm hall h m).mpr .main
  have hshape := justRead_shape (git := git) hrs hasc hmain (hback _ _ hcm)
  rw [← hout] at hshape
  refine ⟨rs.map Prod.fst, fun n => ?_, fun hall' => ?_, fun m' infos hj => ?_⟩
  · rw [← C95_exact hr hm hall h n]
    constructor
    · intro hn
      obtain ⟨⟨_, j⟩, hj, rfl⟩ := List.mem_map.mp hn
      obtain ⟨c, _, hc⟩ := hent _ _ (assoc_of_mem hasc hj)
      exact ⟨c, hc⟩
    · rintro ⟨c, hc⟩
      exact List.mem_map.mpr ⟨_, assoc_some_mem (hback _ _ hc), rfl⟩
  · rw [hshape]
    obtain ⟨es, hes⟩ := collect_complete (f := fun e : Str × Json N =>
        readRepo git ja (rs.map Prod.fst) (decide (e.1 = m)) (fieldsOf e.2)) (l := rs) (by
      rintro ⟨n, j⟩ hnj
      obtain ⟨c, rfl, hc⟩ := hent _ _ (assoc_of_mem hasc hnj)
      exact hall' n c hc)
    exact ⟨_, by rw [hes]; rfl⟩
  · rw [hshape, Option.map_eq_some_iff] at hj
    obtain ⟨es, hes, he⟩ := hj
    cases he
    obtain ⟨k1, k2⟩ := collect_some hes
    refine ⟨rfl, fun n i hi => ?_, fun n c hc => ?_⟩
    · obtain ⟨⟨⟨n', j⟩, i'⟩, he', heq⟩ := List.mem_map.mp (assoc_some_mem hi)
      cases heq
      have hmem : (n', j) ∈ rs := by rw [← k1]; exact List.mem_map.mpr ⟨_, he', rfl⟩
      obtain ⟨c, _, hc⟩ := hent _ _ (assoc_of_mem hasc hmem)
      exact (C95_exact hr hm hall h n').mp ⟨c, hc⟩
    · have hmem := assoc_some_mem (hback _ _ hc)
      rw [← k1] at hmem
      obtain ⟨⟨e, i⟩, he, rfl⟩ := List.mem_map.mp hmem
      have hnd : (es.map fun e => e.1.1).Nodup := by
        have := ascending_nodup hasc
        rw [← k1, List.map_map] at this
        exact this
      exact ⟨i, k2 _ he, assoc_map_key n es i hnd ⟨_, he⟩⟩

/-- The parts of what is read for a repository. -/
theorem readRepo_some {names : List Str} {b : Bool} {c : List (Str × Json N)} {i : Info N} :
    readRepo git ja names b c = some i ↔ readWorkspace git ja b c = some i.workspaceRoot ∧
      readLayer git b ja.targetRoot "target_root".toList c i.workspaceRoot = some i.targetRoot ∧
      readLayer git b ja.ruleRoot "rule_root".toList c i.targetRoot = some i.ruleRoot ∧
      readLayer git b ja.expressionRoot "expression_root".toList c i.ruleRoot = some i.expressionRoot ∧
      readBindings names c = some i.nameMapping ∧
      readFileName b ja.targetFileName "target_file_name".toList "TARGETS".toList c = some i.targetFileName ∧
      readFileName b ja.ruleFileName "rule_file_name".toList "RULES".toList c = some i.ruleFileName ∧
      readFileName b ja.expressionFileName "expression_file_name".toList "EXPRESSIONS".toList c =
        some i.expressionFileName := by
  constructor
  · intro h
    unfold readRepo at h
    split at h
    · cases h
    split at h
    · cases h
    split at h
    · cases h
    split at h
    · cases h
    split at h
    · cases h
      exact ⟨‹_›, ‹_›, ‹_›, ‹_›, ‹_›, ‹_›, ‹_›, ‹_›⟩
    · cases h
  · rintro ⟨h1, h2, h3, h4, h5, h6, h7, h8⟩
    simp only [readRepo, h1, h2, h3, h4, h5, h6, h7, h8]

theorem readNames_some {names : List Str} {bs : List (Str × Json N)} {ns : List (Str × Str)}
    (h : readNames names bs = some ns) (x g : Str) : assoc x ns = some g ↔ assoc x bs = some (.str g) := by
  induction bs generalizing ns with
  | nil => cases h; simp [assoc]
  | cons e bs ih =>
    obtain ⟨l, v⟩ := e
    cases v <;> try (simp only [readNames] at h; cases h)
    rename_i g'
    simp only [readNames] at h
    split at h
    · obtain ⟨r, hr, rfl⟩ := Option.map_eq_some_iff.mp h
      simp only [assoc]
      by_cases hx : x = l
      · rw [if_pos hx, if_pos hx]; simp
      · rw [if_neg hx, if_neg hx]; exact ih hr
    · cases h

theorem readNames_complete {names : List Str} {bs : List (Str × Json N)}
    (h : ∀ e ∈ bs, ∃ g, e.2 = .str g ∧ g ∈ names) : ∃ ns, readNames names bs = some ns := by
  induction bs with
  | nil => exact ⟨_, rfl⟩
  | cons e bs ih =>
    obtain ⟨l, v⟩ := e
    obtain ⟨g, hg, hgn⟩ := h _ (List.mem_cons_self ..)
    simp only at hg; subst hg
    obtain ⟨ns, hns⟩ := ih (fun e he => h e (List.mem_cons_of_mem _ he))
    exact ⟨_, by simp only [readNames, if_pos hgn, hns, Option.map_some]; rfl⟩

theorem readFileName_plain {b : Bool} {key default s : Str} {c : List (Str × Json N)}
    (h : readFileName b none key default c = some s) :
    assoc key c = some (.str s) ∨ (assoc key c = none ∧ s = default) := by
  unfold readFileName at h
  split at h
  · refine Or.inr ⟨‹_›, ?_⟩
    cases b <;> · simp at h; exact h.symm
  · left
    rename_i heq
    rw [heq]
    cases b <;> · simp at h; rw [h]
  · cases h

theorem readLayer_plain {b : Bool} {key : Str} {c : List (Str × Json N)} {fr default : FRoot N}
    (h : readLayer git b none key c default = some fr) :
    (∃ j p, assoc key c = some j ∧ parseRoot git j = some (fr, p)) ∨ (assoc key c = none ∧ fr = default) := by
  unfold readLayer at h
  split at h
  · refine Or.inr ⟨‹_›, ?_⟩
    cases b <;> · simp at h; exact h.symm
  · left
    rename_i j heq
    obtain ⟨⟨fr', p⟩, hr, he⟩ := Option.map_eq_some_iff.mp h
    refine ⟨j, p, heq, ?_⟩
    cases b <;> · simp at he; rw [hr, he]

/-- **C96.**  `just` takes as main repository the one just-mr has taken. -/
theorem C96_main (hr : field "repositories".toList config = .obj repos) (hm : MainIs args config repos m)
    (hall : args.all = false) (h : generate env args config = .ok out) (hja : ja.main = none)
    {m' : Str} {infos : List (Str × Info N)} (hj : justRead git ja out = some (m', infos)) : m' = m := by
  obtain ⟨_, _, _, q⟩ := read_entries (git := git) hr hm hall h hja
  exact (q _ _ hj).1

/-- **C96.**  The repositories `just` knows are the ones needed. -/
theorem C96_repos (hr : field "repositories".toList config = .obj repos) (hm : MainIs args config repos m)
    (hall : args.all = false) (h : generate env args config = .ok out) (hja : ja.main = none)
    {m' : Str} {infos : List (Str × Info N)} (hj : justRead git ja out = some (m', infos)) (n : Str) :
    (∃ i, assoc n infos = some i) ↔ Needed repos m n := by
  obtain ⟨_, _, _, q⟩ := read_entries (git := git) hr hm hall h hja
  obtain ⟨_, q2, q3⟩ := q _ _ hj
  constructor
  · rintro ⟨i, hi⟩; exact q2 n i hi
  · intro hn
    obtain ⟨c, hc⟩ := (C95_exact hr hm hall h n).mpr hn
    obtain ⟨i, _, hi⟩ := q3 n c hc
    exact ⟨i, hi⟩

/-- **C96** (without two kinds of descriptions that are misread: computed roots for a target named differently
than its module, and a main repository that is a directory whose special entries are to be ignored).  `just`
sees every repository as it is described: the workspace root is the one described; the roots for targets,
rules and expressions are the workspace roots of the repositories named as layers, and otherwise default to
the workspace root, the root for targets and the root for rules, respectively; the bindings are the declared
ones, and so are the names of the files. -/
theorem C96_repo_partial (hf : FetchesGit env) (hr : field "repositories".toList config = .obj repos)
    (hm : MainIs args config repos m) (hall : args.all = false) (hi : args.interactive = false)
    (h : generate env args config = .ok out) (hja : PlainArgs ja) {m' : Str} {infos : List (Str × Info N)}
    (hj : justRead git ja out = some (m', infos)) {n : Str} {i : Info N} (hn : assoc n infos = some i)
    (ht : ∀ d, Describes repos n d → TargetNamedAsModule d)
    (hlt : ∀ k b d, Layer repos n k b → Describes repos b d → TargetNamedAsModule d)
    (hs : n = m → ∀ p, ¬ Workspace env repos n (.dir p true)) :
    Workspace env repos n i.workspaceRoot ∧
    LayerRoot env repos n "target_root".toList i.workspaceRoot i.targetRoot ∧
    LayerRoot env repos n "rule_root".toList i.targetRoot i.ruleRoot ∧
    LayerRoot env repos n "expression_root".toList i.ruleRoot i.expressionRoot ∧
    (∀ x g, assoc x i.nameMapping = some g ↔
      ∃ bs, Has repos n "bindings".toList (.obj bs) ∧ assoc x bs = some (.str g)) ∧
    FileName repos n "target_file_name".toList "TARGETS".toList i.targetFileName ∧
    FileName repos n "rule_file_name".toList "RULES".toList i.ruleFileName ∧
    FileName repos n "expression_file_name".toList "EXPRESSIONS".toList i.expressionFileName := by
  obtain ⟨j1, j2, j3, j4, j5, j6, j7, j8⟩ := hja
  obtain ⟨names, _, _, q⟩ := read_entries (git := git) hr hm hall h j1
  obtain ⟨_, q2, q3⟩ := q _ _ hj
  obtain ⟨c, hc⟩ := (C95_exact hr hm hall h n).mpr (q2 n i hn)
  obtain ⟨i', hread, hi'⟩ := q3 n c hc
  rw [hn] at hi'; cases hi'
  obtain ⟨r1, r2, r3, r4, r5, r6, r7, r8⟩ := readRepo_some.mp hread
  rw [j3] at r2; rw [j4] at r3; rw [j5] at r4; rw [j6] at r6; rw [j7] at r7; rw [j8] at r8
  obtain ⟨⟨d, root, e1, e2, e3⟩, e4, e5, e6⟩ := C95_entry hr hm hall h hc (Or.inl hi)
  have hlayer : ∀ key default fr, (key = "target_root".toList ∨ key = "rule_root".toList ∨
      key = "expression_root".toList) → readLayer git (decide (n = m)) none key c default = some fr →
      LayerRoot env repos n key default fr := by
    intro key default fr hk hrd
    rcases readLayer_plain hrd with ⟨j, p, hj, hp⟩ | ⟨hno, rfl⟩
    · rcases e6 _ _ hj with rfl | ⟨b, hb⟩ | hk'
      · exact absurd hk (by decide)
      · obtain ⟨d', root', hd', hg', hr'⟩ := e5 key b hb (Or.inl hi)
        rw [hr'] at hj; cases hj
        exact Or.inl ⟨b, hb, d', hd', (root_means hf (rootGiven_is hg' (hlt _ _ _ hb hd')) hp).1⟩
      · exfalso; revert hk hk'
        rintro (rfl | rfl | rfl) <;> decide
    · refine Or.inr ⟨fun b hb => ?_, rfl⟩
      obtain ⟨d', root', _, _, hr'⟩ := e5 key b hb (Or.inl hi)
      rw [hr'] at hno; cases hno
  have hfile : ∀ key default s, (key = "bindings".toList ∨ key = "target_file_name".toList ∨
      key = "rule_file_name".toList ∨ key = "expression_file_name".toList) →
      readFileName (decide (n = m)) none key default c = some s → FileName repos n key default s := by
    intro key default s hk hrd
    rcases readFileName_plain hrd with hj | ⟨hno, rfl⟩
    · exact Or.inl ((e4 key _ hk).mp hj)
    · refine Or.inr ⟨fun v hv => ?_, rfl⟩
      rw [(e4 key _ hk).mpr hv] at hno; cases hno
  refine ⟨?_, hlayer _ _ _ (Or.inl rfl) r2, hlayer _ _ _ (Or.inr (Or.inl rfl)) r3,
    hlayer _ _ _ (Or.inr (Or.inr rfl)) r4, fun x g => ?_, hfile _ _ _ (Or.inr (Or.inl rfl)) r6,
    hfile _ _ _ (Or.inr (Or.inr (Or.inl rfl))) r7, hfile _ _ _ (Or.inr (Or.inr (Or.inr rfl))) r8⟩
  · unfold readWorkspace at r1
    rw [e3] at r1
    simp only [j2] at r1
    split at r1
    · cases r1
    · rename_i r path hpr
      obtain ⟨hmean, hpath⟩ := root_means hf (rootGiven_is e2 (ht d e1)) hpr
      by_cases hnm : n = m
      · simp only [hnm, decide_true, if_true] at r1
        cases path with
        | none => rw [← Option.some.inj r1]; exact ⟨d, e1, hmean⟩
        | some p =>
          rw [← Option.some.inj r1]
          obtain ⟨ign, rfl⟩ := hpath p rfl
          cases ign with
          | false => exact ⟨d, e1, hmean⟩
          | true => exact absurd ⟨d, e1, hmean⟩ (hs hnm p)
      · simp only [hnm, decide_false, Bool.false_eq_true, if_false] at r1
        rw [← Option.some.inj r1]
        exact ⟨d, e1, hmean⟩
  · unfold readBindings at r5
    split at r5
    · rename_i hno
      rw [← Option.some.inj r5]
      constructor
      · intro e; cases e
      · rintro ⟨bs, hb, _⟩
        rw [(e4 _ _ (Or.inl rfl)).mpr hb] at hno; cases hno
    · rename_i bs hb
      rw [readNames_some r5]
      constructor
      · intro e; exact ⟨bs, (e4 _ _ (Or.inl rfl)).mp hb, e⟩
      · rintro ⟨bs', hb', e⟩
        rw [(e4 _ _ (Or.inl rfl)).mpr hb'] at hb; cases hb
        exact e
    · cases r5

/-- **C96.**  `just` accepts the configuration written, if the bindings of the repositories needed are given
as maps of names, and the names of files as strings. -/
theorem C96_accepted (hf : FetchesGit env) (ho : FetchesPresent env git)
    (hr : field "repositories".toList config = .obj repos)
    (hm : MainIs args config repos m) (hall : args.all = false) (hi : args.interactive = false)
    (h : generate env args config = .ok out) (hja : PlainArgs ja)
    (hb : ∀ n v, Needed repos m n → Has repos n "bindings".toList v →
      ∃ bs, v = .obj bs ∧ ∀ e ∈ bs, ∃ g, e.2 = .str g)
    (hfn : ∀ n k v, k = "target_file_name".toList ∨ k = "rule_file_name".toList ∨
      k = "expression_file_name".toList → Needed repos m n → Has repos n k v → ∃ s, v = .str s) :
    ∃ infos, justRead git ja out = some (m, infos) := by
  obtain ⟨j1, j2, j3, j4, j5, j6, j7, j8⟩ := hja
  obtain ⟨names, hnames, q, _⟩ := read_entries (git := git) hr hm hall h j1
  refine q (fun n c hc => ?_)
  have hneed := (C95_exact hr hm hall h n).mp ⟨c, hc⟩
  obtain ⟨⟨d, root, e1, e2, e3⟩, e4, e5, e6⟩ := C95_entry hr hm hall h hc (Or.inl hi)
  obtain ⟨ws, hws⟩ : ∃ ws, readWorkspace git ja (decide (n = m)) c = some ws := by
    obtain ⟨fr, p, hp⟩ := root_parses (git := git) hf ho e2
    simp only [readWorkspace, e3, hp, j2]
    split
    · cases p <;> exact ⟨_, rfl⟩
    · exact ⟨_, rfl⟩
  have hlayer : ∀ key default, (key = "target_root".toList ∨ key = "rule_root".toList ∨
      key = "expression_root".toList) → ∃ fr, readLayer git (decide (n = m)) none key c default = some fr := by
    intro key default hk
    unfold readLayer
    cases hj : assoc key c with
    | none => exact ⟨_, rfl⟩
    | some j =>
      rcases e6 _ _ hj with rfl | ⟨b, hb⟩ | hk'
      · exact absurd hk (by decide)
      · obtain ⟨d', root', hd', hg', hr'⟩ := e5 key b hb (Or.inl hi)
        rw [hr'] at hj; cases hj
        obtain ⟨fr, p, hp⟩ := root_parses (git := git) hf ho hg'
        exact ⟨_, by simp only [hp]; rfl⟩
      · exfalso; revert hk hk'
        rintro (rfl | rfl | rfl) <;> decide
  have hfile : ∀ key default, (key = "target_file_name".toList ∨
      key = "rule_file_name".toList ∨ key = "expression_file_name".toList) →
      ∃ s, readFileName (decide (n = m)) none key default c = some s := by
    intro key default hk
    unfold readFileName
    cases hj : assoc key c with
    | none => exact ⟨_, rfl⟩
    | some j =>
      obtain ⟨s, rfl⟩ := hfn n key j hk hneed ((e4 key _ (Or.inr hk)).mp hj)
      exact ⟨_, rfl⟩
  obtain ⟨tr, htr⟩ := hlayer "target_root".toList ws (Or.inl rfl)
  obtain ⟨rr, hrr⟩ := hlayer "rule_root".toList tr (Or.inr (Or.inl rfl))
  obtain ⟨er, her⟩ := hlayer "expression_root".toList rr (Or.inr (Or.inr rfl))
  obtain ⟨tf, htf⟩ := hfile "target_file_name".toList "TARGETS".toList (Or.inl rfl)
  obtain ⟨rf, hrf⟩ := hfile "rule_file_name".toList "RULES".toList (Or.inr (Or.inl rfl))
  obtain ⟨ef, hef⟩ := hfile "expression_file_name".toList "EXPRESSIONS".toList (Or.inr (Or.inr rfl))
  obtain ⟨ns, hns⟩ : ∃ ns, readBindings names c = some ns := by
    unfold readBindings
    cases hj : assoc "bindings".toList c with
    | none => exact ⟨_, rfl⟩
    | some j =>
      have hhas := (e4 _ _ (Or.inl rfl)).mp hj
      obtain ⟨bs, rfl, hbs⟩ := hb n j hneed hhas
      simp only
      refine readNames_complete (fun e he => ?_)
      obtain ⟨g, hg⟩ := hbs e he
      refine ⟨g, hg, (hnames g).mpr (.binds hneed ⟨bs, e.1, hhas, ?_⟩)⟩
      rw [← hg]; exact he
  refine ⟨⟨ws, tr, rr, er, ns, tf, rf, ef⟩, readRepo_some.mpr ?_⟩
  rw [j3, j4, j5, j6, j7, j8]
  exact ⟨hws, htr, hrr, her, hns, htf, hrf, hef⟩

/-- **C96.**  If the workspace root of the main repository is left to the user, it is the directory found from
where `just` is called. -/
theorem C96_interactive (hr : field "repositories".toList config = .obj repos)
    (hm : MainIs args config repos m) (hall : args.all = false) (hi : args.interactive = true)
    (h : generate env args config = .ok out) (hja : PlainArgs ja) {m' : Str} {infos : List (Str × Info N)}
    (hj : justRead git ja out = some (m', infos)) :
    ∃ i p, assoc m infos = some i ∧ ja.markers = some p ∧ i.workspaceRoot = .dir p false := by
  obtain ⟨j1, j2, _⟩ := hja
  obtain ⟨names, _, _, q⟩ := read_entries (git := git) hr hm hall h j1
  obtain ⟨_, _, q3⟩ := q _ _ hj
  obtain ⟨c, hc⟩ := (C95_exact hr hm hall h m).mpr .main
  obtain ⟨i, hread, hi'⟩ := q3 m c hc
  obtain ⟨r1, _⟩ := readRepo_some.mp hread
  have hno : assoc "workspace_root".toList c = none := by
    cases e : assoc "workspace_root".toList c with
    | none => rfl
    | some v => exact absurd ((C95_interactive hr hm hall hi h hc _ _).mp e).1 (by decide)
  simp only [readWorkspace, hno, decide_true, if_true, j2, Option.map_eq_some_iff] at r1
  obtain ⟨p, hp, he⟩ := r1
  exact ⟨i, p, hi', hp, he.symm⟩

end

/-! ## Examples -/

/-- Arguments of `just` that change nothing. -/
def plainArgs : JustArgs where
  main := none
  workspaceRoot := none
  targetRoot := none
  ruleRoot := none
  expressionRoot := none
  targetFileName := none
  ruleFileName := none
  expressionFileName := none
  markers := some "/work".toList

example : PlainArgs plainArgs := ⟨rfl, rfl, rfl, rfl, rfl, rfl, rfl, rfl⟩

example : FetchesGit exampleEnv ∧ FetchesPresent exampleEnv (fun _ _ => true) :=
  ⟨fun _ _ _ h => by cases h; exact ⟨_, .present _ _⟩, fun _ _ _ _ _ _ _ _ => rfl⟩

/-- Reading what was generated. -/
def readBack (args : Args) (config : List (Str × Json Unit)) : Option (Str × List (Str × Info Unit)) :=
  match generate exampleEnv args config with
  | .ok out => justRead (fun _ _ => true) plainArgs out
  | _ => none

/-- What is read for one repository, with the roots shown. -/
def showRoot : FRoot Unit → List String
  | .dir p i => ["dir", String.ofList p, toString i]
  | .git r t i => ["git", String.ofList r, String.ofList t, toString i]
  | .absent t i => ["absent", String.ofList t, toString i]
  | .computed r m t _ a => ["computed", String.ofList r, String.ofList m, String.ofList t, toString a]
  | .treeStructure r a => ["tree structure", String.ofList r, toString a]

/-- The workspace root and the root for targets of a repository. -/
def rootsRead (n : String) (r : Option (Str × List (Str × Info Unit))) : List (List String) :=
  match r with
  | none => []
  | some (_, infos) =>
    match assoc n.toList infos with
    | none => []
    | some i => [showRoot i.workspaceRoot, showRoot i.targetRoot]

/-- The hypotheses of the theorems can be met. -/
example : (readBack ⟨none, false, false⟩ exampleConfig).map (fun r => (String.ofList r.1, r.2.map fun e =>
      String.ofList e.1)) = some ("app", ["app", "gen", "lib", "tool"]) ∧
    rootsRead "app" (readBack ⟨none, false, false⟩ exampleConfig) =
      [["dir", "/home/src", "false"], ["dir", "/home/files", "false"]] ∧
    rootsRead "lib" (readBack ⟨none, false, false⟩ exampleConfig) =
      [["git", "/cache", "4b825d", "false"], ["git", "/cache", "4b825d", "false"]] ∧
    rootsRead "gen" (readBack ⟨none, false, false⟩ exampleConfig) =
      [["computed", "tool", "", "", "false"], ["computed", "tool", "", "", "false"]] := by
  decide +kernel

/-! ## Violations -/

/-- A description with one repository. -/
def single (fields : List (Str × Json Unit)) : List (Str × Json Unit) :=
  [("repositories".toList, .obj [("a".toList, .obj fields)])]

/-- A description of a computed root. -/
def computedConfig : List (Str × Json Unit) :=
  [("repositories".toList, .obj
     [("a".toList, .obj [("repository".toList, .obj
         [("repo".toList, .str "b".toList),
          ("target".toList, .arr [.str "mod".toList, .str "tree".toList]),
          ("type".toList, .str "computed".toList)])]),
      ("b".toList, .obj [("repository".toList, .obj
         [("path".toList, .str ".".toList), ("type".toList, .str "file".toList)])])])]

/-- **Violation of C96.**  The root described as the output of the target "tree" of the module "mod" of the
repository "b" is taken to be the output of a target "mod" of that module: just-mr takes the name of the
module as name of the target (src/other_tools/utils/parse_precomputed_root.cpp:91). -/
theorem C96_violation_computed :
    (∃ r, IsComputed (N := Unit) (.obj r) "b".toList "mod".toList "tree".toList (.obj []) false ∧
      ∃ repos, field "repositories".toList computedConfig = .obj repos ∧
        Describes repos "a".toList (.obj r)) ∧
    rootsRead "a" (readBack ⟨none, false, false⟩ computedConfig) =
      [["computed", "b", "mod", "mod", "false"], ["computed", "b", "mod", "mod", "false"]] := by
  refine ⟨⟨_, ⟨_, rfl, rfl, rfl, rfl, Or.inl ⟨rfl, rfl⟩, Or.inl ⟨rfl, rfl⟩⟩, _, rfl,
    .here rfl rfl (fun s e => by cases e)⟩, by decide +kernel⟩

/-- **Violation of C96.**  In a main repository that is a directory the special entries of which are to be
ignored, they are not ignored: `just` takes the path of the root to make a new one from
(src/buildtool/main/main.cpp:557-577), without the property of ignoring such entries. -/
theorem C96_violation_ignore_special :
    rootsRead "a" (readBack ⟨none, false, false⟩ (single [("repository".toList, .obj
      [("path".toList, .str "src".toList), ("pragma".toList, .obj [("special".toList, .str "ignore".toList)]),
       ("type".toList, .str "file".toList)])])) =
      [["dir", "/home/src", "false"], ["dir", "/home/src", "false"]] := by
  decide +kernel

/-- A description in which a layer of the main repository, and a layer that is the main repository, are
given. -/
def layersConfig : List (Str × Json Unit) :=
  [("main".toList, .str "app".toList),
   ("repositories".toList, .obj
     [("app".toList, .obj
       [("bindings".toList, .obj [("lib".toList, .str "lib".toList)]),
        ("repository".toList, .obj [("path".toList, .str "src".toList), ("type".toList, .str "file".toList)]),
        ("target_root".toList, .str "files".toList)]),
      ("files".toList, .obj
       [("repository".toList, .obj [("path".toList, .str "files".toList),
         ("type".toList, .str "file".toList)])]),
      ("lib".toList, .obj
       [("repository".toList, .obj [("path".toList, .str "lib".toList), ("type".toList, .str "file".toList)]),
        ("target_root".toList, .str "app".toList)])])]

/-- **Violation of C96.**  With `setup-env` only "the workspace root of the main repository is left out"
(share/man/just-mr.1.md:255-260), but the layers of the main repository are left out as well
(src/other_tools/just_mr/setup.cpp:463-464): its targets are looked for in the workspace instead of in the
repository named.  Also another repository whose targets are in the main repository loses this layer
(src/other_tools/just_mr/setup.cpp:484-491), and its targets are looked for in its own workspace. -/
theorem C96_violation_layers :
    rootsRead "app" (readBack ⟨none, false, false⟩ layersConfig) =
      [["dir", "/home/src", "false"], ["dir", "/home/files", "false"]] ∧
    rootsRead "app" (readBack ⟨none, false, true⟩ layersConfig) =
      [["dir", "/work", "false"], ["dir", "/work", "false"]] ∧
    rootsRead "lib" (readBack ⟨none, false, false⟩ layersConfig) =
      [["dir", "/home/lib", "false"], ["dir", "/home/src", "false"]] ∧
    rootsRead "lib" (readBack ⟨none, false, true⟩ layersConfig) =
      [["dir", "/home/lib", "false"], ["dir", "/home/lib", "false"]] := by
  decide +kernel

end Verif.MrConfig
