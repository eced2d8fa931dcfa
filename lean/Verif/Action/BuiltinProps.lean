import Verif.Action.Builtin
import Verif.Action.Props
import Verif.Stage.InstallProps

/-!
# Actions defined by rules: C71
-/

namespace Verif.Action

open Verif.Art Verif.Dig Verif.Expr Verif.Path Verif.Stage

variable {N : Type}

/-! ## Lemmas -/

theorem allOf_some {α β : Type} {f : α → Option β} {l : List α} {r : List β} :
    allOf f l = some r ↔ l.map f = r.map some := by
  induction l generalizing r with
  | nil => cases r <;> simp [allOf]
  | cons a t ih =>
    cases r with
    | nil =>
      simp only [allOf, List.map_cons, List.map_nil, reduceCtorEq, iff_false]
      cases f a with
      | none => simp
      | some b =>
        cases allOf f t <;> simp
    | cons b r =>
      simp only [allOf, List.map_cons, List.cons.injEq, ← ih]
      cases f a with
      | none => simp
      | some c =>
        cases allOf f t with
        | none => simp
        | some cs => simp

theorem strsOf_some {v : Value N} {l : List Str} : strsOf v = some l ↔ v = .list (l.map .str) := by
  unfold strsOf
  constructor
  · intro h
    cases hv : v.list? with
    | none => rw [hv] at h; simp at h
    | some vs =>
      rw [hv] at h
      simp only [Option.bind_some] at h
      rw [Val.eq_of_list? hv]
      congr 1
      rw [allOf_some] at h
      clear hv
      induction vs generalizing l with
      | nil => cases l <;> simp_all
      | cons a t ih =>
        cases l with
        | nil => simp at h
        | cons b r =>
          simp only [List.map_cons, List.cons.injEq] at h ⊢
          exact ⟨Val.eq_of_str? h.1, ih h.2⟩
  · rintro rfl
    simp only [Val.list?, Option.bind_some]
    rw [allOf_some]
    induction l with
    | nil => rfl
    | cons a t ih => simp_all [Val.str?]

theorem strItemsOf_some {v : Value N} {l : List (Str × Str)} :
    strItemsOf v = some l ↔ v = strMap l := by
  unfold strItemsOf strMap
  constructor
  · intro h
    cases hv : v.map? with
    | none => rw [hv] at h; simp at h
    | some vs =>
      rw [hv] at h
      simp only [Option.bind_some] at h
      rw [Val.eq_of_map? hv]
      congr 1
      rw [allOf_some] at h
      clear hv
      induction vs generalizing l with
      | nil => cases l <;> simp_all
      | cons a t ih =>
        cases l with
        | nil => simp at h
        | cons b r =>
          simp only [List.map_cons, List.cons.injEq] at h ⊢
          refine ⟨?_, ih h.2⟩
          have h1 := h.1
          cases ha : a.2.str? with
          | none => rw [ha] at h1; simp at h1
          | some s =>
            rw [ha] at h1
            simp only [Option.bind_some, Option.some.injEq] at h1
            rw [← h1]
            simp only
            rw [← Val.eq_of_str? ha]
  · rintro rfl
    simp only [Val.map?, Option.bind_some]
    rw [allOf_some]
    induction l with
    | nil => rfl
    | cons a t ih => simp_all [Val.str?]

theorem artItemsOf_some {v : Value N} {l : List (Str × Desc)} :
    artItemsOf v = some l ↔ v = artMap l := by
  unfold artItemsOf artMap
  constructor
  · intro h
    cases hv : v.map? with
    | none => rw [hv] at h; simp at h
    | some vs =>
      rw [hv] at h
      simp only [Option.bind_some] at h
      rw [Val.eq_of_map? hv]
      congr 1
      rw [allOf_some] at h
      clear hv
      induction vs generalizing l with
      | nil => cases l <;> simp_all
      | cons a t ih =>
        cases l with
        | nil => simp at h
        | cons b r =>
          simp only [List.map_cons, List.cons.injEq] at h ⊢
          refine ⟨?_, ih h.2⟩
          have h1 := h.1
          obtain ⟨k, w⟩ := a
          cases w with
          | art d =>
            simp only [artOf, Option.bind_some, Option.some.injEq] at h1
            rw [← h1]
          | _ => simp [artOf] at h1
  · rintro rfl
    simp only [Val.map?, Option.bind_some]
    rw [allOf_some]
    induction l with
    | nil => rfl
    | cons a t ih => simp_all [artOf]

theorem foldl_emplace_find {A : Type} (l : List (Str × A)) (m : OMap Str A) (k : Str) :
    (l.foldl (fun m e => m.emplace e.1 e.2) m).find k = (m.find k).or (assoc k l) := by
  induction l generalizing m with
  | nil => simp [assoc]
  | cons e t ih =>
    rw [List.foldl_cons, ih, OMap.find_emplace]
    simp only [assoc]
    by_cases hk : k = e.1
    · subst hk
      cases m.find e.1 <;> simp
    · simp [hk]

theorem find_omapOf {A : Type} (l : List (Str × A)) (k : Str) : (omapOf l).find k = assoc k l := by
  unfold omapOf
  rw [foldl_emplace_find]
  simp

theorem mem_sortDedup (l : List Str) (s : Str) : s ∈ sortDedup l ↔ s ∈ l := by
  unfold sortDedup
  rw [List.mem_map]
  constructor
  · rintro ⟨⟨k, u⟩, hk, rfl⟩
    have := OMap.mem_items.1 hk
    rw [find_omapOf] at this
    have := assoc_some_mem this
    simpa using this
  · intro h
    have : assoc s (l.map fun s => (s, ())) = some () := by
      induction l with
      | nil => simp at h
      | cons a t ih =>
        simp only [List.map_cons, assoc]
        by_cases hs : s = a
        · simp [hs]
        · simp only [hs, if_false]
          exact ih (by simpa [hs] using h)
    exact ⟨(s, ()), OMap.mem_items.2 (by rw [find_omapOf]; exact this), rfl⟩

theorem sortDedup_sorted (l : List Str) : (sortDedup l).Pairwise (· < ·) := by
  unfold sortDedup
  rw [List.pairwise_map]
  exact (omapOf (l.map fun s => (s, ()))).asc

theorem disjointOuts_iff (a b : List Str) : disjointOuts a b = true ↔ ∀ s, s ∈ a → s ∉ b := by
  unfold disjointOuts
  simp [List.all_eq_true]

theorem outsMap_find (id : Str) (l : List Str) (m : OMap Str Desc) (k : Str) :
    (outsMap id l m).find k =
      (m.find k).or (if k ∈ l then some (.action id (toNormalPath k)) else none) := by
  induction l generalizing m with
  | nil => simp [outsMap]
  | cons o t ih =>
    simp only [outsMap]
    rw [ih, OMap.find_emplace]
    by_cases hk : k = o
    · subst hk
      cases m.find k <;> simp
    · simp [hk]

/-- The artifacts of an action. -/
theorem outs_find (id : Str) (outs dirs : List Str) (k : Str) (d : Desc) :
    (outsMap id dirs (outsMap id outs OMap.empty)).find k = some d ↔
      (k ∈ outs ∨ k ∈ dirs) ∧ d = .action id (toNormalPath k) := by
  rw [outsMap_find, outsMap_find]
  by_cases h1 : k ∈ outs
  · simp [h1, eq_comm]
  · by_cases h2 : k ∈ dirs
    · simp [h1, h2, eq_comm]
    · simp [h1, h2]

/-! ## What is asked for -/

/-- The working directory is inside of the action root. -/
def InsideRoot (cwd : Str) : Prop := (place cwd).abs = false ∧ (place cwd).up = 0

theorem abs_foldl (l : List Str) (P : Place) : (l.foldl Place.follow P).abs = P.abs := by
  induction l generalizing P with
  | nil => rfl
  | cons a t ih =>
    rw [List.foldl_cons, ih]
    unfold Place.follow
    split
    · rfl
    · split
      · split
        · split <;> rfl
        · rfl
      · rfl

theorem abs_place (s : Str) : (place s).abs = isAbs s := by
  rw [place_eq, abs_foldl]

theorem cwdOf_some {v : Value N} {s : Str} : cwdOf v = some s ↔ v = .str s ∧ InsideRoot s := by
  have hs : (s.isEmpty || nonUpwards s == .val true) = true ↔ InsideRoot s := by
    unfold InsideRoot
    by_cases he : s = []
    · subst he
      simp
      decide
    · obtain ⟨b, h1, h2⟩ := nonUpwards_eq s he
      rw [h1, abs_place]
      rw [show ((s.isEmpty || (Answer.val b == Answer.val true)) = true ↔ b = true) by
        cases b <;> simp [he], h2]
  unfold cwdOf
  constructor
  · intro h
    cases hv : v.str? with
    | none => rw [hv] at h; simp at h
    | some t =>
      rw [hv] at h
      simp only [Option.bind_some] at h
      split at h
      · rename_i hc
        simp only [Option.some.injEq] at h
        subst h
        exact ⟨Val.eq_of_str? hv, hs.1 hc⟩
      · cases h
  · rintro ⟨rfl, h⟩
    simp only [Val.str?, Option.bind_some]
    rw [if_pos (hs.2 h)]

theorem taintsOf_some {tainted : List Str} {v : Value N} {l : List Str} :
    taintsOf tainted v = some l ↔ v = .list (l.map .str) ∧ ∀ s ∈ l, s ∈ tainted := by
  unfold taintsOf
  constructor
  · intro h
    cases hv : strsOf v with
    | none => rw [hv] at h; simp at h
    | some r =>
      rw [hv] at h
      simp only [Option.bind_some] at h
      split at h
      · rename_i hc
        simp only [Option.some.injEq] at h
        subst h
        refine ⟨strsOf_some.1 hv, fun s hs => ?_⟩
        simpa using List.all_eq_true.1 hc s hs
      · cases h
  · rintro ⟨h1, h2⟩
    rw [strsOf_some.2 h1]
    simp only [Option.bind_some]
    rw [if_pos (List.all_eq_true.2 (fun s hs => by simpa using h2 s hs))]

/-- An argument `outs` or `out_dirs` and the outputs of the action: those at the same places, in
normal form, in ascending order. -/
def OutputsOf (v : Value N) (files : List Str) : Prop :=
  (∃ outs : List Str, v = .list (outs.map .str) ∧
    ∀ p, p ∈ files ↔ toNormalPath p = p ∧ ∃ o ∈ outs, place o = place p) ∧
  files.Pairwise (· < ·)

/-- An argument `may_fail` or `no_cache`, and whether it is set: only with strings the rule is tainted with. -/
def PermittedBy (tainted : List Str) (v : Value N) (set : Bool) : Prop :=
  ∃ entries : List Str, v = .list (entries.map .str) ∧ (∀ e ∈ entries, e ∈ tainted) ∧ (set = true ↔ entries ≠ [])

/-- The inputs of the action are those given, at their places, besides those only an empty directory at
the working directory. -/
structure InputsOf (h : Hashing N) (v : Value N) (cwd : Str) (inputs : List (Str × Desc)) : Prop where
  given : ∃ given, v = artMap given ∧ Stageable (omapOf given) ∧
    (∀ k d, (omapOf given).find k = some d → (toNormalPath k, d) ∈ inputs) ∧
    (∀ p d, (p, d) ∈ inputs →
      (∃ k, (omapOf given).find k = some d ∧ place k = place p ∧ toNormalPath p = p) ∨
      (p = cwd ∧ d = emptyDir h))
  sorted : Ascending inputs

/-- The action is the one described by the arguments. -/
structure Described (h : Hashing N) (one : N) (tainted : List Str) (c : Call N) (a : Act N) : Prop where
  inputs : InputsOf h c.inputs a.cwd a.inputs
  files : OutputsOf c.outs a.files
  dirs : OutputsOf c.outDirs a.dirs
  output : a.files ≠ [] ∨ a.dirs ≠ []
  disjoint : ∀ p ∈ a.files, p ∉ a.dirs
  command : c.cmd = .list (a.command.map .str) ∧ a.command ≠ []
  cwd : c.cwd = .str a.cwd ∧ InsideRoot a.cwd
  env : c.env = strMap a.env
  mayFail : PermittedBy tainted c.mayFail a.mayFail.isSome
  message : ∀ s, a.mayFail = some s → c.failMessage = .str s
  noCache : PermittedBy tainted c.noCache a.noCache
  timeout : c.scale = .num a.timeout ∨ (c.scale = .none ∧ a.timeout = one)
  props : c.props = strMap a.props ∨ (c.props = .none ∧ a.props = [])

theorem outputsOf_sortDedup {v : Value N} {outs : List Str} (h : strsOf v = some outs) :
    OutputsOf v (sortDedup (outs.map toNormalPath)) := by
  refine ⟨⟨outs, strsOf_some.1 h, fun p => ?_⟩, sortDedup_sorted _⟩
  rw [mem_sortDedup, List.mem_map]
  constructor
  · rintro ⟨o, ho, rfl⟩
    exact ⟨C39_idempotent o, o, ho, (C39_location o).symm⟩
  · rintro ⟨hp, o, ho, h⟩
    exact ⟨o, ho, by rw [(C39_canonical o p).2 h, hp]⟩

theorem sortDedup_eq_nil (l : List Str) : sortDedup l = [] ↔ l = [] := by
  constructor
  · intro h
    cases l with
    | nil => rfl
    | cons a t =>
      have := (mem_sortDedup (a :: t) a).2 List.mem_cons_self
      rw [h] at this
      simp at this
  · rintro rfl; rfl

/-- Adding the working directory keeps what is there and adds nothing but an empty directory. -/
theorem addDirFor_find {A : Type} (e : A) (cwd : Str) (m : OMap Str A) (k : Str) (a : A) :
    (m.find k = some a → (addDirFor e cwd m).find k = some a) ∧
    ((addDirFor e cwd m).find k = some a → m.find k = some a ∨ (k = cwd ∧ a = e)) := by
  unfold addDirFor
  split
  · exact ⟨fun h => h, fun h => Or.inl h⟩
  · rename_i hc
    split
    · rename_i hmay
      rw [OMap.find_assign]
      constructor
      · intro h
        by_cases hk : k = cwd
        · subst hk
          exfalso
          unfold mayAddDir at hmay
          have := List.all_eq_true.1 hmay (k, a) (OMap.mem_items.2 h)
          simp only [Bool.and_eq_true, Bool.not_eq_true'] at this
          have h2 := this.1.2
          rw [List.any_eq_false] at h2
          refine h2 k ?_ (by simp)
          have hk : k ≠ [] := fun h => hc (Or.inl h)
          cases hk' : k.length + 1 with
          | zero => omega
          | succ n =>
            unfold upTo
            rw [if_neg hk]
            exact List.mem_cons_self
        · rw [if_neg hk]
          exact h
      · intro h
        by_cases hk : k = cwd
        · rw [if_pos hk] at h
          exact Or.inr ⟨hk, (Option.some.inj h).symm⟩
        · rw [if_neg hk] at h
          exact Or.inl h
    · exact ⟨fun h => h, fun h => Or.inl h⟩

theorem inputsOf_check {h : Hashing N} {v : Value N} {cwd : Str} {given : List (Str × Desc)}
    {stage : OMap Str Desc} (hv : artItemsOf v = some given) (hs : checkStage (omapOf given) = .ok stage) :
    InputsOf h v cwd (addDirFor (emptyDir h) cwd stage).items := by
  have hc := C37_content (omapOf given) stage hs
  refine ⟨⟨given, artItemsOf_some.1 hv, (C37_exact _).1 ⟨_, hs⟩, ?_, ?_⟩,
    (addDirFor (emptyDir h) cwd stage).asc⟩
  · intro k d hk
    refine OMap.mem_items.2 ((addDirFor_find _ _ _ _ _).1 ((hc _ _).2 ⟨k, hk, ?_, C39_idempotent k⟩))
    exact (C39_location k).symm
  · intro p d hp
    rcases (addDirFor_find _ _ _ _ _).2 (OMap.mem_items.1 hp) with h1 | h1
    · exact Or.inl ((hc _ _).1 h1)
    · exact Or.inr h1

theorem scaleOf_some {one n : N} {v : Value N} :
    scaleOf one v = some n ↔ v = .num n ∨ (v = .none ∧ n = one) := by
  cases v <;> simp [scaleOf, eq_comm]

theorem propsOf_some {v : Value N} {l : List (Str × Str)} (h : propsOf v = some l) :
    v = strMap l ∨ (v = .none ∧ l = []) := by
  by_cases hv : v = .none
  · subst hv
    simp only [propsOf, Option.some.injEq] at h
    exact Or.inr ⟨rfl, h.symm⟩
  · left
    have : propsOf v = strItemsOf v := by
      cases v <;> first | rfl | exact absurd rfl hv
    rw [this] at h
    exact strItemsOf_some.1 h

theorem propsOf_of {v : Value N} {l : List (Str × Str)} (h : v = strMap l ∨ (v = .none ∧ l = [])) :
    ∃ r, propsOf v = some r := by
  rcases h with hp | ⟨hp, -⟩
  · rw [hp]
    refine ⟨l, ?_⟩
    have : propsOf (strMap l : Value N) = strItemsOf (strMap l) := rfl
    rw [this]
    exact strItemsOf_some.2 rfl
  · rw [hp]; exact ⟨[], rfl⟩

theorem outputsOf_mem {outs files : List Str}
    (h : ∀ p, p ∈ files ↔ toNormalPath p = p ∧ ∃ o ∈ outs, place o = place p) (p : Str) :
    p ∈ sortDedup (outs.map toNormalPath) ↔ p ∈ files := by
  rw [h, mem_sortDedup, List.mem_map]
  constructor
  · rintro ⟨o, ho, rfl⟩
    exact ⟨C39_idempotent o, o, ho, (C39_location o).symm⟩
  · rintro ⟨hp, o, ho, h⟩
    exact ⟨o, ho, by rw [(C39_canonical o p).2 h, hp]⟩

theorem outputs_nonempty {outs dirs files dirs' : List Str}
    (e1 : ∀ p, p ∈ sortDedup (outs.map toNormalPath) ↔ p ∈ files)
    (e2 : ∀ p, p ∈ sortDedup (dirs.map toNormalPath) ↔ p ∈ dirs') (h : files ≠ [] ∨ dirs' ≠ []) :
    ¬ (outs.isEmpty && dirs.isEmpty) = true := by
  simp only [Bool.and_eq_true, List.isEmpty_iff]
  rintro ⟨rfl, rfl⟩
  rcases h with h | h
  · obtain ⟨p, hp⟩ := List.exists_mem_of_ne_nil _ h
    have := (e1 p).2 hp
    simp [mem_sortDedup] at this
  · obtain ⟨p, hp⟩ := List.exists_mem_of_ne_nil _ h
    have := (e2 p).2 hp
    simp [mem_sortDedup] at this

theorem failOf_some {entries : List Str} {v : Value N} {f : Option Str} (h : failOf entries v = some f) :
    (f.isSome = true ↔ entries ≠ []) ∧ ∀ s, f = some s → v = .str s := by
  unfold failOf at h
  split at h
  · rename_i he
    simp only [List.isEmpty_iff] at he
    simp only [Option.some.injEq] at h
    subst h
    simp [he]
  · rename_i he
    simp only [List.isEmpty_iff] at he
    cases hv : v.str? with
    | none => rw [hv] at h; simp at h
    | some s =>
      rw [hv] at h
      simp only [Option.bind_some, Option.some.injEq] at h
      subst h
      refine ⟨by simp [he], ?_⟩
      intro t ht
      simp only [Option.some.injEq] at ht
      subst ht
      exact Val.eq_of_str? hv

/-! ## C71 -/

/-- The action recorded for a call of `ACTION` is the one described by its arguments.  In particular, it has
a command and an output, its working directory is inside of the action root, it may fail or be excluded from caching
only if the rule is tainted accordingly.  The value is the map from all outputs, as they were given, to the
artifacts of this action at their places. -/
theorem C71_action (h : Hashing N) (hexFloat : N → Str) (one : N) (tainted : List Str) (c : Call N)
    (a : Act N) (r : OMap Str Desc) (hc : actionCall h hexFloat one tainted c = some (a, r)) :
    Described h one tainted c a ∧
    ∀ outs dirs : List Str, c.outs = .list (outs.map .str) → c.outDirs = .list (dirs.map .str) → ∀ k d,
      r.find k = some d ↔ (k ∈ outs ∨ k ∈ dirs) ∧ d = .action (a.id h hexFloat) (toNormalPath k) := by
  unfold actionCall at hc
  obtain ⟨inputs, hin, hc⟩ := Option.bind_eq_some_iff.1 hc
  cases hs : checkStage (omapOf inputs) with
  | conflict p => rw [hs] at hc; cases hc
  | ub => rw [hs] at hc; cases hc
  | ok stage =>
  rw [hs] at hc
  simp only at hc
  obtain ⟨outs, houts, hc⟩ := Option.bind_eq_some_iff.1 hc
  obtain ⟨dirs, hdirs, hc⟩ := Option.bind_eq_some_iff.1 hc
  split at hc
  · cases hc
  rename_i hne
  split at hc
  · cases hc
  rename_i hdis
  obtain ⟨cmd, hcmd, hc⟩ := Option.bind_eq_some_iff.1 hc
  split at hc
  · cases hc
  rename_i hcne
  obtain ⟨cwd, hcwd, hc⟩ := Option.bind_eq_some_iff.1 hc
  obtain ⟨env, henv, hc⟩ := Option.bind_eq_some_iff.1 hc
  obtain ⟨mf, hmf, hc⟩ := Option.bind_eq_some_iff.1 hc
  obtain ⟨fail, hfail, hc⟩ := Option.bind_eq_some_iff.1 hc
  obtain ⟨nc, hnc, hc⟩ := Option.bind_eq_some_iff.1 hc
  obtain ⟨scale, hscale, hc⟩ := Option.bind_eq_some_iff.1 hc
  obtain ⟨props, hprops, hc⟩ := Option.bind_eq_some_iff.1 hc
  simp only [Option.some.injEq, Prod.mk.injEq] at hc
  obtain ⟨ha, hr⟩ := hc
  constructor
  · rw [← ha]
    obtain ⟨hf1, hf2⟩ := failOf_some hfail
    obtain ⟨hm1, hm2⟩ := taintsOf_some.1 hmf
    obtain ⟨hn1, hn2⟩ := taintsOf_some.1 hnc
    refine ⟨inputsOf_check hin hs, outputsOf_sortDedup houts, outputsOf_sortDedup hdirs, ?_, ?_,
      ⟨strsOf_some.1 hcmd, ?_⟩, cwdOf_some.1 hcwd, strItemsOf_some.1 henv, ⟨mf, hm1, hm2, hf1⟩, hf2,
      ⟨nc, hn1, hn2, ?_⟩, scaleOf_some.1 hscale, propsOf_some hprops⟩
    · simp only [ne_eq, sortDedup_eq_nil, List.map_eq_nil_iff]
      simp only [Bool.and_eq_true, List.isEmpty_iff, not_and_or] at hne
      exact hne
    · intro p hp
      simp only [Bool.not_eq_true', Bool.not_eq_false] at hdis
      exact (disjointOuts_iff _ _).1 hdis p hp
    · intro e
      simp only at e
      rw [e] at hcne
      simp at hcne
    · simp
  · intro outs' dirs' h1 h2 k d
    have e1 := strsOf_some.2 h1
    have e2 := strsOf_some.2 h2
    rw [houts] at e1
    rw [hdirs] at e2
    simp only [Option.some.injEq] at e1 e2
    subst e1 e2
    rw [← hr, ← ha]
    exact outs_find _ _ _ _ _

/-- Every artifact obtained from a call of `ACTION` is an output of the action recorded. -/
theorem C71_outputs (h : Hashing N) (hexFloat : N → Str) (one : N) (tainted : List Str) (c : Call N)
    (a : Act N) (r : OMap Str Desc) (hc : actionCall h hexFloat one tainted c = some (a, r)) (k : Str)
    (d : Desc) (hk : r.find k = some d) :
    ∃ p, d = .action (a.id h hexFloat) p ∧ (p ∈ a.files ∨ p ∈ a.dirs) ∧ place p = place k := by
  obtain ⟨hd, hr⟩ := C71_action h hexFloat one tainted c a r hc
  obtain ⟨outs, ho, hof⟩ := hd.files.1
  obtain ⟨dirs, hdi, hdf⟩ := hd.dirs.1
  obtain ⟨h1, rfl⟩ := (hr outs dirs ho hdi k d).1 hk
  refine ⟨toNormalPath k, rfl, ?_, C39_location k⟩
  rcases h1 with h1 | h1
  · exact Or.inl ((hof _).2 ⟨C39_idempotent k, k, h1, (C39_location k).symm⟩)
  · exact Or.inr ((hdf _).2 ⟨C39_idempotent k, k, h1, (C39_location k).symm⟩)

/-- A call of `ACTION` is accepted iff its arguments describe an action: they have the right types, there is a
command and an output, no output is both a file and a directory, the inputs fit into one stage, the working directory is
inside of the action root, and the rule is tainted with what `may_fail` and `no_cache` say. -/
theorem C71_accepted (h : Hashing N) (hexFloat : N → Str) (one : N) (tainted : List Str) (c : Call N) :
    (∃ a r, actionCall h hexFloat one tainted c = some (a, r)) ↔ ∃ a, Described h one tainted c a := by
  constructor
  · rintro ⟨a, r, hc⟩
    exact ⟨a, (C71_action h hexFloat one tainted c a r hc).1⟩
  · rintro ⟨a, hd⟩
    obtain ⟨⟨given, hg1, hg2, -, -⟩, -⟩ := hd.inputs
    obtain ⟨stage, hs⟩ := (C37_exact _).2 hg2
    obtain ⟨outs, ho, hof⟩ := hd.files.1
    obtain ⟨dirs, hdi, hdf⟩ := hd.dirs.1
    obtain ⟨mf, hm1, hm2, hm3⟩ := hd.mayFail
    obtain ⟨nc, hn1, hn2, -⟩ := hd.noCache
    have e1 := outputsOf_mem hof
    have e2 := outputsOf_mem hdf
    have hne := outputs_nonempty e1 e2 hd.output
    have hdis : ¬ (!disjointOuts (sortDedup (outs.map toNormalPath))
        (sortDedup (dirs.map toNormalPath))) = true := by
      simp only [Bool.not_eq_true', Bool.not_eq_false]
      rw [disjointOuts_iff]
      intro p hp hp'
      exact hd.disjoint p ((e1 p).1 hp) ((e2 p).1 hp')
    have hcne : ¬ a.command.isEmpty = true := by
      simp only [List.isEmpty_iff]
      exact hd.command.2
    obtain ⟨fail, hfail⟩ : ∃ f, failOf mf c.failMessage = some f := by
      unfold failOf
      by_cases hm : mf = []
      · simp [hm]
      · have := hm3.2 hm
        obtain ⟨s, hs⟩ := Option.isSome_iff_exists.1 this
        rw [hd.message s hs]
        simp [hm, Val.str?]
    obtain ⟨props, hprops⟩ := propsOf_of hd.props
    unfold actionCall
    rw [artItemsOf_some.2 hg1]
    simp only [Option.bind_some]
    rw [hs]
    simp only
    rw [strsOf_some.2 ho]
    simp only [Option.bind_some]
    rw [strsOf_some.2 hdi]
    simp only [Option.bind_some]
    rw [if_neg hne, if_neg hdis, strsOf_some.2 hd.command.1]
    simp only [Option.bind_some]
    rw [if_neg hcne, cwdOf_some.2 hd.cwd, strItemsOf_some.2 hd.env, taintsOf_some.2 ⟨hm1, hm2⟩]
    simp only [Option.bind_some]
    rw [hfail, taintsOf_some.2 ⟨hn1, hn2⟩, scaleOf_some.2 hd.timeout, hprops]
    simp only [Option.bind_some]
    exact ⟨_, _, rfl⟩

/-- A rule that is not tainted cannot define actions that may fail or are excluded from caching. -/
theorem C71_untainted (h : Hashing N) (hexFloat : N → Str) (one : N) (c : Call N)
    (a : Act N) (r : OMap Str Desc) (hc : actionCall h hexFloat one [] c = some (a, r)) :
    a.mayFail = none ∧ a.noCache = false := by
  obtain ⟨hd, -⟩ := C71_action h hexFloat one [] c a r hc
  obtain ⟨mf, -, h1, h2⟩ := hd.mayFail
  obtain ⟨nc, -, h3, h4⟩ := hd.noCache
  constructor
  · cases hm : a.mayFail with
    | none => rfl
    | some s =>
      exfalso
      obtain ⟨e, he⟩ := List.exists_mem_of_ne_nil _ (h2.1 (by rw [hm]; rfl))
      exact absurd (h1 e he) (by simp)
  · cases hn : a.noCache with
    | false => rfl
    | true =>
      exfalso
      obtain ⟨e, he⟩ := List.exists_mem_of_ne_nil _ (h4.1 hn)
      exact absurd (h3 e he) (by simp)

theorem cwd_stage {A : Type} {e : A} {cwd : Str} {stage : OMap Str A}
    (hnorm : ∀ k d, stage.find k = some d → toNormalPath k = k) (hst : Stageable stage)
    (hin : InsideRoot cwd) (hn : cwd = [] ∨ toNormalPath cwd = cwd) :
    Stageable (addDirFor e cwd stage) ∧
    ((place cwd).down ≠ [] → ∃ k a, (addDirFor e cwd stage).find k = some a ∧
      ((place k).down <+: (place cwd).down ∨ (place cwd).down <+: (place k).down)) := by
  rcases hn with hn | hn
  · subst hn
    unfold addDirFor
    rw [if_pos (Or.inl rfl)]
    exact ⟨hst, fun h => absurd rfl h⟩
  · obtain ⟨hi1, hi2⟩ := hin
    have := C58_cwd_partial e cwd stage hnorm hst hn hi1 hi2
    exact ⟨this.1, this.2.2.2⟩

/-- Missing: working directories not in normal form, see `C58_violation`.  The inputs of an action fit into one
stage, also with the working directory. -/
theorem C71_inputs_partial (h : Hashing N) (hexFloat : N → Str) (one : N) (tainted : List Str) (c : Call N)
    (a : Act N) (r : OMap Str Desc) (hc : actionCall h hexFloat one tainted c = some (a, r))
    (hn : a.cwd = [] ∨ toNormalPath a.cwd = a.cwd) : Stageable (omapOf a.inputs) ∧
    ((place a.cwd).down ≠ [] → ∃ k d, (k, d) ∈ a.inputs ∧
      ((place k).down <+: (place a.cwd).down ∨ (place a.cwd).down <+: (place k).down)) := by
  obtain ⟨hd, -⟩ := C71_action h hexFloat one tainted c a r hc
  unfold actionCall at hc
  obtain ⟨inputs, hin, hc⟩ := Option.bind_eq_some_iff.1 hc
  cases hs : checkStage (omapOf inputs) with
  | conflict p => rw [hs] at hc; cases hc
  | ub => rw [hs] at hc; cases hc
  | ok stage =>
  rw [hs] at hc
  simp only at hc
  obtain ⟨outs, houts, hc⟩ := Option.bind_eq_some_iff.1 hc
  obtain ⟨dirs, hdirs, hc⟩ := Option.bind_eq_some_iff.1 hc
  split at hc
  · cases hc
  split at hc
  · cases hc
  obtain ⟨cmd, hcmd, hc⟩ := Option.bind_eq_some_iff.1 hc
  split at hc
  · cases hc
  obtain ⟨cwd, hcwd, hc⟩ := Option.bind_eq_some_iff.1 hc
  obtain ⟨env, henv, hc⟩ := Option.bind_eq_some_iff.1 hc
  obtain ⟨mf, hmf, hc⟩ := Option.bind_eq_some_iff.1 hc
  obtain ⟨fail, hfail, hc⟩ := Option.bind_eq_some_iff.1 hc
  obtain ⟨nc, hnc, hc⟩ := Option.bind_eq_some_iff.1 hc
  obtain ⟨scale, hscale, hc⟩ := Option.bind_eq_some_iff.1 hc
  obtain ⟨props, hprops, hc⟩ := Option.bind_eq_some_iff.1 hc
  simp only [Option.some.injEq, Prod.mk.injEq] at hc
  obtain ⟨ha, hr⟩ := hc
  have hnorm : ∀ k d, stage.find k = some d → toNormalPath k = k := by
    intro k d hk
    obtain ⟨-, -, -, h⟩ := (C37_content _ _ hs k d).1 hk
    exact h
  have hst : Stageable stage := by
    have hg := (C37_exact _).1 ⟨_, hs⟩
    refine ⟨?_, ?_⟩
    · intro k d hk
      obtain ⟨k', h1, h2, -⟩ := (C37_content _ _ hs k d).1 hk
      rw [← h2]
      exact hg.inside k' d h1
    · intro k d k' d' hk hk' hp
      obtain ⟨x, h1, h2, -⟩ := (C37_content _ _ hs k d).1 hk
      obtain ⟨y, h3, h4, -⟩ := (C37_content _ _ hs k' d').1 hk'
      rw [← h2, ← h4] at hp ⊢
      exact hg.free x d y d' h1 h3 hp
  have hcw : a.cwd = cwd := by rw [← ha]
  have hsome := cwd_stage (e := emptyDir h) hnorm hst (cwdOf_some.1 hcwd).2 (hcw ▸ hn)
  have he : omapOf a.inputs = addDirFor (emptyDir h) cwd stage := by
    apply OMap.ext
    intro k
    rw [find_omapOf, ← ha]
    rfl
  rw [he, hcw]
  refine ⟨hsome.1, fun hd => ?_⟩
  obtain ⟨k, d, h1, h2⟩ := hsome.2 hd
  exact ⟨k, d, by rw [← ha]; exact OMap.mem_items.2 h1, h2⟩

/-- Two artifacts obtained from calls of `ACTION` are the same iff they are at the same place and the actions are
the same, ignoring in which repositories known inputs were found. -/
theorem C71_identity (h : Hashing N) (ho : h.OK) {hexFloat : N → Str} (hf : HexFloat hexFloat) (t : HashType)
    (one : N) (tainted tainted' : List Str) (c c' : Call N) (a a' : Act N) (r r' : OMap Str Desc)
    (hc : actionCall h hexFloat one tainted c = some (a, r))
    (hc' : actionCall h hexFloat one tainted' c' = some (a', r'))
    (hv : ∀ kd ∈ a.inputs, kd.2.Valid t) (hv' : ∀ kd ∈ a'.inputs, kd.2.Valid t)
    (hn : NoCollision h.H (hashedAct h hexFloat a.forget ++ hashedAct h hexFloat a'.forget))
    (k k' : Str) (d d' : Desc) (hk : r.find k = some d) (hk' : r'.find k' = some d') :
    d = d' ↔ place k = place k' ∧ a.forget = a'.forget := by
  obtain ⟨hd, hr⟩ := C71_action h hexFloat one tainted c a r hc
  obtain ⟨hd', hr'⟩ := C71_action h hexFloat one tainted' c' a' r' hc'
  obtain ⟨outs, ho1, -⟩ := hd.files.1
  obtain ⟨dirs, hd1, -⟩ := hd.dirs.1
  obtain ⟨outs', ho2, -⟩ := hd'.files.1
  obtain ⟨dirs', hd2, -⟩ := hd'.dirs.1
  obtain ⟨-, rfl⟩ := (hr outs dirs ho1 hd1 k d).1 hk
  obtain ⟨-, rfl⟩ := (hr' outs' dirs' ho2 hd2 k' d').1 hk'
  rw [Desc.action.injEq, C39_canonical]
  constructor
  · rintro ⟨h1, h2⟩
    exact ⟨h2, C47_action h ho hf t a a' hv hv' hn h1⟩
  · rintro ⟨h1, h2⟩
    refine ⟨?_, h1⟩
    unfold Act.id
    rw [← text_forget, ← text_forget h hexFloat a', h2]

/-! ### Generic targets -/

/-- What the last of the dependencies having something at that place has there. -/
def LastOf (f : Provided Desc → OMap Str Desc) (deps : List (Provided Desc)) (k : Str) (d : Desc) : Prop :=
  ∃ pre x post, deps = pre ++ x :: post ∧ (f x).find k = some d ∧ ∀ y ∈ post, (f y).find k = none

theorem foldl_over_find (f : Provided Desc → OMap Str Desc) (deps : List (Provided Desc))
    (m : OMap Str Desc) (k : Str) (d : Desc) :
    (deps.foldl (fun m x => over m (f x)) m).find k = some d ↔
      LastOf f deps k d ∨ ((∀ x ∈ deps, (f x).find k = none) ∧ m.find k = some d) := by
  induction deps generalizing m with
  | nil =>
    simp only [List.foldl_nil, List.not_mem_nil, false_imp_iff, implies_true, true_and]
    constructor
    · exact Or.inr
    · rintro (⟨pre, x, post, h, -⟩ | h)
      · simp at h
      · exact h
  | cons a t ih =>
    simp only [List.foldl_cons]
    rw [ih, find_over]
    constructor
    · rintro (⟨pre, x, post, rfl, h2⟩ | ⟨h1, h2⟩)
      · exact Or.inl ⟨a :: pre, x, post, rfl, h2⟩
      · cases ha : (f a).find k with
        | none =>
          rw [ha] at h2
          refine Or.inr ⟨fun x hx => ?_, h2⟩
          rcases List.mem_cons.1 hx with rfl | hx
          · exact ha
          · exact h1 x hx
        | some b =>
          rw [ha] at h2
          simp only [Option.some_or, Option.some.injEq] at h2
          subst h2
          exact Or.inl ⟨[], a, t, rfl, ha, h1⟩
    · rintro (⟨pre, x, post, h1, h2, h3⟩ | ⟨h1, h2⟩)
      · cases pre with
        | nil =>
          simp only [List.nil_append, List.cons.injEq] at h1
          obtain ⟨rfl, rfl⟩ := h1
          exact Or.inr ⟨h3, by rw [h2]; rfl⟩
        | cons b pre =>
          simp only [List.cons_append, List.cons.injEq] at h1
          obtain ⟨rfl, rfl⟩ := h1
          exact Or.inl ⟨pre, x, post, rfl, h2, h3⟩
      · refine Or.inr ⟨fun x hx => h1 x (List.mem_cons_of_mem _ hx), ?_⟩
        rw [h1 a List.mem_cons_self]
        exact h2

/-- What a `generic` target takes from its dependencies. -/
def Offered (deps : List (Provided Desc)) (k : Str) (d : Desc) : Prop :=
  LastOf Provided.artifacts deps k d ∨
  ((∀ x ∈ deps, x.artifacts.find k = none) ∧ LastOf Provided.runfiles deps k d)

theorem genericInputs_find (deps : List (Provided Desc)) (k : Str) (d : Desc) :
    (genericInputs deps).find k = some d ↔ Offered deps k d := by
  unfold genericInputs Offered
  rw [foldl_over_find, foldl_over_find]
  simp [OMap.empty, OMap.find, assoc]

/-- No output is at the place of another or inside of another. -/
def Apart (outs : List Str) : Prop :=
  ∀ p ∈ outs, ∀ q ∈ outs, (place p).down <+: (place q).down → p = q

/-- The action is the one described by the fields of the `generic` target. -/
structure GenericDescribed (h : Hashing N) (one : N) (deps : List (Provided Desc)) (c : GenericCall N)
    (a : Act N) : Prop where
  stage : ∃ m : OMap Str Desc, Stageable m ∧ ∀ k d, m.find k = some d ↔ Offered deps k d
  inputs : ∀ k d, Offered deps k d → (k, d) ∈ a.inputs
  only : ∀ k d, (k, d) ∈ a.inputs → Offered deps k d ∨ (k = a.cwd ∧ d = emptyDir h)
  sorted : Ascending a.inputs
  files : OutputsOf c.outs a.files
  dirs : OutputsOf c.outDirs a.dirs
  output : a.files ≠ [] ∨ a.dirs ≠ []
  disjoint : ∀ p ∈ a.files, p ∉ a.dirs
  inside : ∀ p ∈ a.files ++ a.dirs, InsideRoot p
  apart : Apart (a.files ++ a.dirs)
  command : ∃ sh cmds : List Str, c.cmds = .list (cmds.map .str) ∧
    a.command = sh ++ [(cmds.map (· ++ ['\n'])).flatten] ∧ sh ≠ [] ∧
    (c.sh = .list (sh.map .str) ∨ (c.sh = .none ∨ c.sh = .list []) ∧ sh = ["sh".toList, "-c".toList])
  cwd : c.cwd = .str a.cwd ∧ InsideRoot a.cwd
  env : c.env = strMap a.env
  mayFail : a.mayFail = none
  noCache : a.noCache = false
  timeout : c.scale = .num a.timeout ∨ (c.scale = .none ∧ a.timeout = one)
  props : c.props = strMap a.props ∨ (c.props = .none ∧ a.props = [])

theorem shellOf_some {v : Value N} {l : List Str} :
    shellOf v = some l ↔ l ≠ [] ∧
      (v = .list (l.map .str) ∨ (v = .none ∨ v = .list []) ∧ l = ["sh".toList, "-c".toList]) := by
  by_cases hv : v = .none
  · subst hv
    simp only [shellOf, Option.some.injEq]
    constructor
    · rintro rfl
      simp
    · rintro ⟨-, h⟩
      simpa [eq_comm] using h
  · have e : shellOf v = (strsOf v).bind fun l =>
        some (if l.isEmpty then ["sh".toList, "-c".toList] else l) := by
      cases v <;> first | rfl | exact absurd rfl hv
    rw [e]
    constructor
    · intro h
      obtain ⟨r, hr, h⟩ := Option.bind_eq_some_iff.1 h
      simp only [Option.some.injEq] at h
      have hr := strsOf_some.1 hr
      cases r with
      | nil =>
        subst h
        exact ⟨by simp, Or.inr ⟨Or.inr hr, rfl⟩⟩
      | cons x t =>
        subst h
        exact ⟨by simp, Or.inl hr⟩
    · rintro ⟨h1, h2 | ⟨h2 | h2, rfl⟩⟩
      · rw [strsOf_some.2 h2]
        simp [h1]
      · exact absurd h2 hv
      · have : strsOf v = some [] := strsOf_some.2 (by simpa using h2)
        rw [this]
        rfl

theorem outsMap_ok {id : Str} {files dirs : List Str} (hf : ∀ p ∈ files, toNormalPath p = p)
    (hd : ∀ p ∈ dirs, toNormalPath p = p) :
    treeConflict (outsMap id dirs (outsMap id files OMap.empty)) = .ok ↔
      (∀ p ∈ files ++ dirs, InsideRoot p) ∧ Apart (files ++ dirs) := by
  have hk : ∀ k, (∃ d, (outsMap id dirs (outsMap id files OMap.empty)).find k = some d) ↔
      k ∈ files ++ dirs := by
    intro k
    simp only [outs_find, List.mem_append]
    constructor
    · rintro ⟨d, h, -⟩; exact h
    · intro h; exact ⟨_, h, rfl⟩
  rw [treeConflict_ok]
  · constructor
    · rintro ⟨h1, h2⟩
      constructor
      · intro p hp
        obtain ⟨d, hd⟩ := (hk p).2 hp
        exact h1 p d hd
      · intro p hp q hq h
        obtain ⟨d, hd⟩ := (hk p).2 hp
        obtain ⟨e, he⟩ := (hk q).2 hq
        exact h2 p d q e hd he h
    · rintro ⟨h1, h2⟩
      exact ⟨fun k a ha => h1 k ((hk k).1 ⟨a, ha⟩),
        fun k a k' a' h h' hp => h2 k ((hk k).1 ⟨a, h⟩) k' ((hk k').1 ⟨a', h'⟩) hp⟩
  · intro k a ha
    rcases List.mem_append.1 ((hk k).1 ⟨a, ha⟩) with h | h
    · exact hf k h
    · exact hd k h

theorem sortDedup_normal (l : List Str) : ∀ p ∈ sortDedup (l.map toNormalPath), toNormalPath p = p := by
  intro p hp
  rw [mem_sortDedup, List.mem_map] at hp
  obtain ⟨o, -, rfl⟩ := hp
  exact C39_idempotent o

/-- All paths are in normal form, as they are in the results of all targets. -/
def NormalDeps (deps : List (Provided Desc)) : Prop :=
  ∀ x ∈ deps, (∀ k d, x.artifacts.find k = some d → toNormalPath k = k) ∧
    ∀ k d, x.runfiles.find k = some d → toNormalPath k = k

theorem offered_normal {deps : List (Provided Desc)} (hn : NormalDeps deps) {k : Str} {d : Desc}
    (h : Offered deps k d) : toNormalPath k = k := by
  rcases h with ⟨pre, x, post, rfl, h, -⟩ | ⟨-, pre, x, post, rfl, h, -⟩
  · exact (hn x (by simp)).1 k d h
  · exact (hn x (by simp)).2 k d h

theorem generic_stage {deps : List (Provided Desc)} (hn : NormalDeps deps) :
    treeConflict (genericInputs deps) = .ok ↔
      ∃ m : OMap Str Desc, Stageable m ∧ ∀ k d, m.find k = some d ↔ Offered deps k d := by
  have hm : ∀ k d, (genericInputs deps).find k = some d → toNormalPath k = k :=
    fun k d h => offered_normal hn ((genericInputs_find deps k d).1 h)
  rw [treeConflict_ok _ hm]
  constructor
  · rintro ⟨h1, h2⟩
    refine ⟨genericInputs deps, ⟨h1, ?_⟩, genericInputs_find deps⟩
    intro k a k' a' h h' hp
    have := h2 k a k' a' h h' hp
    subst this
    rw [h] at h'
    exact ⟨rfl, Option.some.inj h'⟩
  · rintro ⟨m, hs, hf⟩
    have : ∀ k d, (genericInputs deps).find k = some d → m.find k = some d :=
      fun k d h => (hf k d).2 ((genericInputs_find deps k d).1 h)
    refine ⟨fun k a h => hs.inside k a (this k a h), ?_⟩
    intro k a k' a' h h' hp
    have hi := hs.inside k a (this k a h)
    have hi' := hs.inside k' a' (this k' a' h')
    obtain ⟨hd, -⟩ := hs.free k a k' a' (this k a h) (this k' a' h') hp
    have : place k = place k' := by
      generalize place k = x at hi hd
      generalize place k' = y at hi' hd
      cases x
      cases y
      simp only at hi hi' hd
      rw [hi.1, hi.2, hi'.1, hi'.2, hd]
    rw [← hm k a h, ← hm k' a' h']
    exact (C39_canonical k k').2 this

/-- The action of a `generic` target is the one described by its fields; its inputs are those of its
dependencies, later ones taking precedence, and artifacts over runfiles.  All outputs are inside of the action root and
apart from each other.  The artifacts of the target are the outputs, at their places. -/
theorem C71_generic (h : Hashing N) (hexFloat : N → Str) (one : N) (deps : List (Provided Desc))
    (hn : NormalDeps deps) (c : GenericCall N) (a : Act N) (r : OMap Str Desc)
    (hc : genericCall h hexFloat one deps c = some (a, r)) :
    GenericDescribed h one deps c a ∧
    ∀ k d, r.find k = some d ↔ (k ∈ a.files ∨ k ∈ a.dirs) ∧ d = .action (a.id h hexFloat) k := by
  unfold genericCall at hc
  obtain ⟨outs, houts, hc⟩ := Option.bind_eq_some_iff.1 hc
  obtain ⟨dirs, hdirs, hc⟩ := Option.bind_eq_some_iff.1 hc
  split at hc
  · cases hc
  rename_i hne
  split at hc
  · cases hc
  rename_i hdis
  obtain ⟨cmd, hcmd, hc⟩ := Option.bind_eq_some_iff.1 hc
  obtain ⟨cwd, hcwd, hc⟩ := Option.bind_eq_some_iff.1 hc
  obtain ⟨env, henv, hc⟩ := Option.bind_eq_some_iff.1 hc
  obtain ⟨sh, hsh, hc⟩ := Option.bind_eq_some_iff.1 hc
  obtain ⟨scale, hscale, hc⟩ := Option.bind_eq_some_iff.1 hc
  obtain ⟨props, hprops, hc⟩ := Option.bind_eq_some_iff.1 hc
  split at hc
  · rename_i hst
    simp only at hc
    split at hc
    · rename_i hout
      simp only [Option.some.injEq, Prod.mk.injEq] at hc
      obtain ⟨ha, hr⟩ := hc
      obtain ⟨hins, hap⟩ := (outsMap_ok (sortDedup_normal outs) (sortDedup_normal dirs)).1 hout
      obtain ⟨hsh1, hsh2⟩ := shellOf_some.1 hsh
      constructor
      · rw [← ha]
        refine ⟨(generic_stage hn).1 hst, ?_, ?_, (addDirFor (emptyDir h) cwd _).asc,
          outputsOf_sortDedup houts, outputsOf_sortDedup hdirs, ?_, ?_, hins, hap,
          ⟨sh, cmd, strsOf_some.1 hcmd, ?_, hsh1, hsh2⟩, cwdOf_some.1 hcwd, strItemsOf_some.1 henv, rfl, rfl,
          scaleOf_some.1 hscale, propsOf_some hprops⟩
        · intro k d hk
          exact OMap.mem_items.2 ((addDirFor_find _ _ _ _ _).1 ((genericInputs_find deps k d).2 hk))
        · intro k d hk
          rcases (addDirFor_find _ _ _ _ _).2 (OMap.mem_items.1 hk) with h1 | h1
          · exact Or.inl ((genericInputs_find deps k d).1 h1)
          · exact Or.inr h1
        · simp only [ne_eq, sortDedup_eq_nil, List.map_eq_nil_iff]
          simp only [Bool.and_eq_true, List.isEmpty_iff, not_and_or] at hne
          exact hne
        · intro p hp
          simp only [Bool.not_eq_true', Bool.not_eq_false] at hdis
          exact (disjointOuts_iff _ _).1 hdis p hp
        · simp only [List.flatMap]
      · intro k d
        rw [← hr, ← ha, outs_find]
        constructor
        · rintro ⟨h1, h2⟩
          refine ⟨h1, ?_⟩
          rw [h2]
          congr 1
          rcases h1 with h1 | h1
          · exact sortDedup_normal outs k h1
          · exact sortDedup_normal dirs k h1
        · rintro ⟨h1, h2⟩
          refine ⟨h1, ?_⟩
          rw [h2]
          congr 1
          rcases h1 with h1 | h1
          · exact (sortDedup_normal outs k h1).symm
          · exact (sortDedup_normal dirs k h1).symm
    · cases hc
  · cases hc

/-- A `generic` target is accepted iff its fields describe an action. -/
theorem C71_generic_accepted (h : Hashing N) (hexFloat : N → Str) (one : N) (deps : List (Provided Desc))
    (hn : NormalDeps deps) (c : GenericCall N) :
    (∃ a r, genericCall h hexFloat one deps c = some (a, r)) ↔ ∃ a, GenericDescribed h one deps c a := by
  constructor
  · rintro ⟨a, r, hc⟩
    exact ⟨a, (C71_generic h hexFloat one deps hn c a r hc).1⟩
  · rintro ⟨a, hd⟩
    obtain ⟨⟨outs, ho, hof⟩, -⟩ := hd.files
    obtain ⟨⟨dirs, hdi, hdf⟩, -⟩ := hd.dirs
    obtain ⟨sh, cmds, hcmd, -, hsh⟩ := hd.command
    have e1 := outputsOf_mem hof
    have e2 := outputsOf_mem hdf
    have hne := outputs_nonempty e1 e2 hd.output
    have hdis : ¬ (!disjointOuts (sortDedup (outs.map toNormalPath))
        (sortDedup (dirs.map toNormalPath))) = true := by
      simp only [Bool.not_eq_true', Bool.not_eq_false]
      rw [disjointOuts_iff]
      intro p hp hp'
      exact hd.disjoint p ((e1 p).1 hp) ((e2 p).1 hp')
    have e3 : ∀ p, p ∈ sortDedup (outs.map toNormalPath) ++ sortDedup (dirs.map toNormalPath) ↔
        p ∈ a.files ++ a.dirs := by
      intro p
      rw [List.mem_append, List.mem_append, e1, e2]
    have hout : ∀ id, treeConflict (outsMap id (sortDedup (dirs.map toNormalPath))
        (outsMap id (sortDedup (outs.map toNormalPath)) OMap.empty)) = .ok := by
      intro id
      rw [outsMap_ok (sortDedup_normal outs) (sortDedup_normal dirs)]
      exact ⟨fun p hp => hd.inside p ((e3 p).1 hp),
        fun p hp q hq => hd.apart p ((e3 p).1 hp) q ((e3 q).1 hq)⟩
    obtain ⟨props, hprops⟩ := propsOf_of hd.props
    unfold genericCall
    rw [strsOf_some.2 ho]
    simp only [Option.bind_some]
    rw [strsOf_some.2 hdi]
    simp only [Option.bind_some]
    rw [if_neg hne, if_neg hdis, strsOf_some.2 hcmd, cwdOf_some.2 hd.cwd, strItemsOf_some.2 hd.env,
      shellOf_some.2 hsh, scaleOf_some.2 hd.timeout, hprops]
    simp only [Option.bind_some]
    rw [(generic_stage hn).2 hd.stage]
    simp only
    rw [if_pos (hout _)]
    exact ⟨_, _, rfl⟩

/-- Missing: working directories not in normal form.  The inputs of the action of a `generic` target fit into one
stage, also with the working directory. -/
theorem C71_generic_inputs_partial (h : Hashing N) (hexFloat : N → Str) (one : N)
    (deps : List (Provided Desc)) (hn : NormalDeps deps) (c : GenericCall N) (a : Act N) (r : OMap Str Desc)
    (hc : genericCall h hexFloat one deps c = some (a, r))
    (hw : a.cwd = [] ∨ toNormalPath a.cwd = a.cwd) : Stageable (omapOf a.inputs) ∧
    ((place a.cwd).down ≠ [] → ∃ k d, (k, d) ∈ a.inputs ∧
      ((place k).down <+: (place a.cwd).down ∨ (place a.cwd).down <+: (place k).down)) := by
  obtain ⟨hd, -⟩ := C71_generic h hexFloat one deps hn c a r hc
  have ha : a.inputs = (addDirFor (emptyDir h) a.cwd (genericInputs deps)).items := by
    unfold genericCall at hc
    obtain ⟨outs, houts, hc⟩ := Option.bind_eq_some_iff.1 hc
    obtain ⟨dirs, hdirs, hc⟩ := Option.bind_eq_some_iff.1 hc
    split at hc
    · cases hc
    split at hc
    · cases hc
    obtain ⟨cmd, hcmd, hc⟩ := Option.bind_eq_some_iff.1 hc
    obtain ⟨cwd, hcwd, hc⟩ := Option.bind_eq_some_iff.1 hc
    obtain ⟨env, henv, hc⟩ := Option.bind_eq_some_iff.1 hc
    obtain ⟨sh, hsh, hc⟩ := Option.bind_eq_some_iff.1 hc
    obtain ⟨scale, hscale, hc⟩ := Option.bind_eq_some_iff.1 hc
    obtain ⟨props, hprops, hc⟩ := Option.bind_eq_some_iff.1 hc
    split at hc
    · simp only at hc
      split at hc
      · simp only [Option.some.injEq, Prod.mk.injEq] at hc
        rw [← hc.1]
      · cases hc
    · cases hc
  have he : omapOf a.inputs = addDirFor (emptyDir h) a.cwd (genericInputs deps) := by
    apply OMap.ext
    intro k
    rw [find_omapOf, ha]
    rfl
  have hst : Stageable (genericInputs deps) := by
    obtain ⟨m, hs, hf⟩ := hd.stage
    have : genericInputs deps = m := by
      apply OMap.ext
      intro k
      ext d
      rw [hf, genericInputs_find]
    rw [this]
    exact hs
  have hsome := cwd_stage (e := emptyDir h)
    (fun k d hk => offered_normal hn ((genericInputs_find deps k d).1 hk)) hst hd.cwd.2 hw
  rw [he]
  refine ⟨hsome.1, fun hne => ?_⟩
  obtain ⟨k, d, h1, h2⟩ := hsome.2 hne
  exact ⟨k, d, by rw [ha]; exact OMap.mem_items.2 h1, h2⟩

/-! ### Examples -/

/-- For examples: a source file. -/
def exampleSource : Desc := .loc "x.c".toList "r".toList

/-- For examples: arguments of `ACTION`. -/
def exampleCall : Call Unit where
  inputs := .map [("./in".toList, .art exampleSource)]
  outs := .list [.str "b//x".toList, .str "a".toList]
  outDirs := .list [.str "out/".toList]
  cmd := .list [.str "sh".toList, .str "build.sh".toList]
  cwd := .str "work".toList
  mayFail := .list [.str "test".toList]

/-- For examples: the action they describe. -/
def exampleCalled : Act Unit where
  files := ["a".toList, "b/x".toList]
  dirs := ["out".toList]
  command := ["sh".toList, "build.sh".toList]
  cwd := "work".toList
  env := []
  mayFail := some "action failed".toList
  noCache := false
  timeout := ()
  props := []
  inputs := [("in".toList, exampleSource), ("work".toList, emptyDir demo)]

/-- For examples: the value of the call. -/
def exampleOuts : OMap Str Desc :=
  outsMap (exampleCalled.id demo demoFloat) ["out/".toList]
    (outsMap (exampleCalled.id demo demoFloat) ["b//x".toList, "a".toList] OMap.empty)

theorem example_call : actionCall demo demoFloat () ["test".toList] exampleCall =
    some (exampleCalled, exampleOuts) := by
  rfl

-- What is described, and the artifact obtained for an output.
example : Described demo () ["test".toList] exampleCall exampleCalled ∧
    exampleOuts.find "b//x".toList = some (.action (exampleCalled.id demo demoFloat) "b/x".toList) := by
  obtain ⟨h1, h2⟩ := C71_action _ _ _ _ _ _ _ example_call
  exact ⟨h1, (h2 ["b//x".toList, "a".toList] ["out/".toList] rfl rfl _ _).2 ⟨Or.inl (by decide), by rfl⟩⟩

-- Without the taint, the call is rejected.
example : ¬ ∃ a, Described demo () [] exampleCall a := by
  rw [← C71_accepted demo demoFloat]
  rintro ⟨a, r, h⟩
  have : actionCall demo demoFloat () [] exampleCall = none := by rfl
  rw [this] at h
  cases h

example : ∃ a r, actionCall demo demoFloat () [] { exampleCall with mayFail := .list [] } = some (a, r) ∧
    a.mayFail = none ∧ a.noCache = false := by
  obtain ⟨a, r, h⟩ : ∃ a r, actionCall demo demoFloat () [] { exampleCall with mayFail := .list [] } =
      some (a, r) := ⟨_, _, rfl⟩
  exact ⟨a, r, h, C71_untainted _ _ _ _ _ _ h⟩

example : Stageable (omapOf exampleCalled.inputs) :=
  (C71_inputs_partial _ _ _ _ _ _ _ example_call (Or.inr (by decide))).1

example : ∃ p, exampleOuts.find "out/".toList = some (.action (exampleCalled.id demo demoFloat) p) ∧
    p ∈ exampleCalled.dirs := by
  have h2 := (C71_action _ _ _ _ _ _ _ example_call).2
  exact ⟨_, (h2 ["b//x".toList, "a".toList] ["out/".toList] rfl rfl _ _).2 ⟨Or.inr (by decide), rfl⟩,
    by decide⟩

-- Two different outputs of one action are different.
example : exampleOuts.find "a".toList ≠ exampleOuts.find "b//x".toList := by
  intro e
  obtain ⟨d, h1⟩ : ∃ d, exampleOuts.find "a".toList = some d := ⟨_, rfl⟩
  obtain ⟨d', h2⟩ : ∃ d, exampleOuts.find "b//x".toList = some d := ⟨_, rfl⟩
  have hv : ∀ kd ∈ exampleCalled.inputs, kd.2.Valid .gitSHA1 := by
    intro kd hk
    simp only [exampleCalled, List.mem_cons, List.not_mem_nil, or_false] at hk
    rcases hk with rfl | rfl
    · trivial
    · trivial
  have h3 := (C71_identity demo demo_ok demoFloat_ok .gitSHA1 () _ _ _ _ _ _ _ _ example_call example_call
    hv hv (noCollision_spec (by decide +kernel)) _ _ d d' h1 h2).1
    (by rw [h1, h2] at e; exact Option.some.inj e)
  exact absurd h3.1 (by decide)

/-- For examples: dependencies of a `generic` target. -/
def exampleDeps : List (Provided Desc) :=
  [⟨omapOf [("a".toList, exampleSource)], omapOf [("b".toList, exampleSource)]⟩,
   ⟨omapOf [("c".toList, .tree "t".toList)], omapOf [("a".toList, .tree "t".toList)]⟩]

/-- For examples: the fields of a `generic` target. -/
def exampleGeneric : GenericCall Unit where
  outs := .list [.str "x//y".toList]
  cmds := .list [.str "mkdir x".toList, .str "cp a x/y".toList]

theorem exampleDeps_normal : NormalDeps exampleDeps := by
  have h : ∀ l : List (Str × Desc), (∀ e ∈ l, toNormalPath e.1 = e.1) →
      ∀ k d, (omapOf l).find k = some d → toNormalPath k = k := by
    intro l hl k d hk
    rw [find_omapOf] at hk
    exact hl _ (assoc_some_mem hk)
  intro x hx
  simp only [exampleDeps, List.mem_cons, List.not_mem_nil, or_false] at hx
  rcases hx with rfl | rfl <;> exact ⟨h _ (by decide), h _ (by decide)⟩

-- The artifact of the first dependency takes precedence over the runfile of the second.
example : ∃ a r, genericCall demo demoFloat () exampleDeps exampleGeneric = some (a, r) ∧
    ("a".toList, exampleSource) ∈ a.inputs ∧ a.files = ["x/y".toList] ∧
    a.command = ["sh".toList, "-c".toList, "mkdir x\ncp a x/y\n".toList] ∧
    GenericDescribed demo () exampleDeps exampleGeneric a ∧ Stageable (omapOf a.inputs) := by
  have h : (genericCall demo demoFloat () exampleDeps exampleGeneric).map
      (fun x => (x.1.inputs, x.1.files, x.1.command, x.1.cwd)) =
      some ([("a".toList, exampleSource), ("b".toList, exampleSource), ("c".toList, .tree "t".toList)],
        ["x/y".toList], ["sh".toList, "-c".toList, "mkdir x\ncp a x/y\n".toList], []) := by
    decide +kernel
  obtain ⟨⟨a, r⟩, h, e⟩ := Option.map_eq_some_iff.1 h
  simp only [Prod.mk.injEq] at e
  obtain ⟨h1, h2, h3, h4⟩ := e
  exact ⟨a, r, h, by rw [h1]; simp, h2, h3, (C71_generic _ _ _ _ exampleDeps_normal _ _ _ h).1,
    (C71_generic_inputs_partial _ _ _ _ exampleDeps_normal _ _ _ h (Or.inl h4)).1⟩

-- With two outputs one inside of the other it is rejected.
example : ¬ ∃ a, GenericDescribed demo () exampleDeps
    { exampleGeneric with outs := .list [.str "x".toList, .str "x/y".toList] } a := by
  rw [← C71_generic_accepted demo demoFloat () _ exampleDeps_normal]
  rintro ⟨a, r, h⟩
  have : genericCall demo demoFloat () exampleDeps
    { exampleGeneric with outs := .list [.str "x".toList, .str "x/y".toList] } = none := by decide +kernel
  rw [this] at h
  cases h

/-- The outputs of actions defined by `ACTION` are not checked to be inside of the action root: this call is
accepted, though its outputs are outside of it. -/
theorem C71_violation_outside :
    ∃ (a : Act Unit) (r : OMap Str Desc),
      actionCall demo demoFloat () []
        { exampleCall with outs := .list [.str "../x".toList, .str "/tmp/x".toList], mayFail := .list [] } =
          some (a, r) ∧
      "../x".toList ∈ a.files ∧ "/tmp/x".toList ∈ a.files ∧ ¬ InsideRoot "../x".toList ∧
      ¬ InsideRoot "/tmp/x".toList := by
  refine ⟨_, _, rfl, by decide, by decide, ?_, ?_⟩
  · unfold InsideRoot; decide
  · unfold InsideRoot; decide

end Verif.Action
