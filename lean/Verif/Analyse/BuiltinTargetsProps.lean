import Verif.Analyse.BuiltinTargets
import Verif.Analyse.TaintProps
import Verif.Stage.InstallProps
import Verif.Names.Props

/-!
# Properties of the targets of built-in rules

C74: `tree` and overlay targets, globs and source trees contain precisely what they should.
-/

namespace Verif.Analyse.Rule

open Verif.Action Verif.Art Verif.Dig Verif.Expr Verif.Path Verif.Stage Verif.LinkedMap

variable {N : Type}

/-! ## What is asked for -/

/-- The target has `d` at `name`, both as artifact and as runfile, and nothing else. -/
def Single (t : RuleTarget N) (name : Str) (d : Desc) : Prop :=
  t.artifacts = artMap [(name, d)] ∧ t.runfiles = artMap [(name, d)] ∧ t.provides = .map []

/-- One dependency asks for `d` at `k`: it is an artifact, or it is a runfile and there is no artifact. -/
def Wins (p : Provided Desc) (k : Str) (d : Desc) : Prop :=
  p.artifacts.find k = some d ∨ (p.artifacts.find k = none ∧ p.runfiles.find k = some d)

/-- Some dependency asks for `d` at `k`. -/
def Wanted (deps : List (Provided Desc)) (k : Str) (d : Desc) : Prop := ∃ p ∈ deps, Wins p k d

/-- What is at a path below an artifact, with the trees in `T`. -/
inductive Reaches (H : Hashes N) (T : List (List (Str × Desc))) : Desc → List Str → Desc → Prop
  | here (d : Desc) : Reaches H T d [] d
  | step {t : List (Str × Desc)} {k : Str} {d x : Desc} {p : List Str} : t ∈ T → (k, d) ∈ t →
      Reaches H T d p x → Reaches H T (.tree (treeId H.h t)) ((place k).down ++ p) x

mutual
/-- What is at a path below an entry of the workspace. -/
def At : Entry → List Str → Entry → Prop
  | e, [], x => x = e
  | .file, _ :: _, _ => False
  | .dir es, n :: p, x => InDir es n p x
/-- What is at a path below a directory of the workspace. -/
def InDir : Entries → Str → List Str → Entry → Prop
  | .nil, _, _, _ => False
  | .cons m e t, n, p, x => (n = m ∧ At e p x) ∨ InDir t n p x
end

/-- The names in a directory. -/
def Entries.names : Entries → List Str
  | .nil => []
  | .cons n _ t => n :: t.names

mutual
/-- The names in all directories are names of directory entries, and different. -/
def Entry.Named : Entry → Prop
  | .file => True
  | .dir es => es.names.Nodup ∧ es.Named
/-- The same for the entries of a directory. -/
def Entries.Named : Entries → Prop
  | .nil => True
  | .cons n e t => ProperName n ∧ e.Named ∧ t.Named
end

/-! ## Lemmas -/

theorem artStage_find (l : List (Str × Desc)) (k : Str) :
    (stageMap (artMap l : Value N)).find k = assoc k l := by
  unfold stageMap
  rw [artItemsOf_some.2 rfl]
  exact find_omapOf l k

theorem single_staged (r : Rec N) (name : Str) (d : Desc) : Single (staged r [(name, d)]) name d := ⟨rfl, rfl, rfl⟩

theorem wins_iff (p : Provided Desc) (k : Str) (d : Desc) :
    (over p.runfiles p.artifacts).find k = some d ↔ Wins p k d := by
  rw [find_over]
  unfold Wins
  cases p.artifacts.find k <;> simp

theorem mergeDeps_find {deps : List (Provided Desc)} {s m : OMap Str Desc} (h : mergeDeps deps s = some m)
    (k : Str) (d : Desc) : m.find k = some d ↔ s.find k = some d ∨ Wanted deps k d := by
  induction deps generalizing s with
  | nil =>
    simp only [mergeDeps, Option.some.injEq] at h
    subst h
    simp [Wanted]
  | cons p t ih =>
    simp only [mergeDeps] at h
    split at h
    · cases h
    · rename_i hd
      rw [Option.not_isSome_iff_eq_none] at hd
      rw [ih h, find_over_agree hd, wins_iff]
      simp only [Wanted, List.mem_cons, exists_eq_or_imp]
      tauto

theorem mergeDeps_some {deps : List (Provided Desc)} {s : OMap Str Desc}
    (h : ∀ k a b, s.find k = some a ∨ Wanted deps k a → s.find k = some b ∨ Wanted deps k b → a = b) :
    ∃ m, mergeDeps deps s = some m := by
  induction deps generalizing s with
  | nil => exact ⟨s, rfl⟩
  | cons p t ih =>
    simp only [mergeDeps]
    cases hd : duplicate s (over p.runfiles p.artifacts) with
    | some k =>
      obtain ⟨a, b, h1, h2, h3⟩ := duplicate_some hd
      exact absurd (h k a b (.inl h1) (.inr ⟨p, List.mem_cons_self, (wins_iff _ _ _).1 h2⟩)) h3
    | none =>
      simp only [Option.isSome_none, Bool.false_eq_true, if_false]
      apply ih
      have hw : ∀ k a, (over s (over p.runfiles p.artifacts)).find k = some a ∨ Wanted t k a →
          s.find k = some a ∨ Wanted (p :: t) k a := by
        rintro k a (h | ⟨q, hq, h⟩)
        · rcases (find_over_agree hd _ _).1 h with h | h
          · exact .inl h
          · exact .inr ⟨p, List.mem_cons_self, (wins_iff _ _ _).1 h⟩
        · exact .inr ⟨q, List.mem_cons_of_mem _ hq, h⟩
      exact fun k a b ha hb => h k a b (hw k a ha) (hw k b hb)

theorem wanted_normal {deps : List (Provided Desc)} (hn : NormalDeps deps) {k : Str} {d : Desc}
    (h : Wanted deps k d) : toNormalPath k = k := by
  obtain ⟨p, hp, h | ⟨-, h⟩⟩ := h
  · exact (hn p hp).1 k d h
  · exact (hn p hp).2 k d h

theorem treeTarget_some {H : Hashes N} {name : Str} {deps : List (Provided Desc)} {t : RuleTarget N}
    (h : treeTarget H name deps = some t) : ∃ s m, mergeDeps deps OMap.empty = some s ∧ exprToTree s = .ok m ∧
      t = staged { trees := [m.items] } [(name, .tree (treeId H.h m.items))] := by
  unfold treeTarget at h
  obtain ⟨s, hs, h⟩ := Option.bind_eq_some_iff.1 h
  cases hm : exprToTree s with
  | ok m =>
    rw [hm] at h
    simp only [Option.some.injEq] at h
    exact ⟨s, m, hs, hm, h.symm⟩
  | conflict p => rw [hm] at h; cases h
  | ub => rw [hm] at h; cases h

/-- Fitting into a stage is being the entries of a stageable map. -/
theorem fits_stageable {R : Str → Desc → Prop} {m : OMap Str Desc} (hm : ∀ k d, m.find k = some d ↔ R k d)
    (hn : ∀ k d, R k d → toNormalPath k = k) : treeConflict m = .ok ↔ Fits R := by
  rw [treeConflict_ok m fun k d h => hn k d ((hm k d).1 h)]
  constructor
  · rintro ⟨h1, h2⟩
    refine ⟨fun k a h => h1 k a ((hm k a).2 h), ?_⟩
    intro k a k' a' h h' hp
    have := h2 k a k' a' ((hm _ _).2 h) ((hm _ _).2 h') hp
    subst this
    rw [← hm] at h h'
    rw [h] at h'
    exact ⟨rfl, Option.some.inj h'⟩
  · rintro ⟨h1, h2⟩
    refine ⟨fun k a h => h1 k a ((hm k a).1 h), ?_⟩
    intro k a k' a' h h' hp
    rw [hm] at h h'
    have e1 := h1 k a h
    have e2 := h1 k' a' h'
    have e3 := (h2 k a k' a' h h' hp).1
    rw [← hn k a h, ← hn k' a' h', C39_canonical]
    cases h3 : place k with
    | mk a1 b1 c1 =>
      cases h4 : place k' with
      | mk a2 b2 c2 =>
        rw [h3] at e1 e3
        rw [h4] at e2 e3
        simp only at e1 e2 e3
        rw [e1.1, e1.2, e2.1, e2.2, e3]

theorem treeContent_self {m : OMap Str Desc} (hn : ∀ k d, m.find k = some d → toNormalPath k = k) :
    treeContent m.items OMap.empty = m := by
  apply OMap.ext
  intro k
  rw [treeContent_find _ _ (fun e he => hn _ _ (OMap.mem_items.1 he))]
  rfl

/-! ## C74: trees -/

/-- Missing: dependencies with stages not in normal form, see `C74_violation_lost`.

A `tree` target is a single tree at its name; it contains precisely what the dependencies ask for. -/
theorem C74_tree_partial (H : Hashes N) (name : Str) (deps : List (Provided Desc)) (hn : NormalDeps deps)
    (t : RuleTarget N) (ht : treeTarget H name deps = some t) :
    ∃ c, t.recorded.trees = [c] ∧ Single t name (.tree (treeId H.h c)) ∧
      ∀ k d, (k, d) ∈ c ↔ Wanted deps k d := by
  obtain ⟨s, m, hs, hm, rfl⟩ := treeTarget_some ht
  have hf : ∀ k d, s.find k = some d ↔ Wanted deps k d := by
    intro k d
    rw [mergeDeps_find hs]
    simp
  refine ⟨m.items, rfl, single_staged _ _ _, fun k d => ?_⟩
  unfold exprToTree at hm
  cases hc : treeConflict s with
  | ok =>
    rw [hc] at hm
    simp only [Staged.ok.injEq] at hm
    rw [treeContent_self fun k d h => wanted_normal hn ((hf k d).1 h)] at hm
    subst hm
    rw [OMap.mem_items, hf]
  | conflict p => rw [hc] at hm; cases hm
  | ub => rw [hc] at hm; cases hm

/-- Missing: dependencies with stages not in normal form, see `C74_violation_lost`.

A `tree` target is accepted iff what its dependencies ask for fits into one stage. -/
theorem C74_tree_exact_partial (H : Hashes N) (name : Str) (deps : List (Provided Desc)) (hn : NormalDeps deps) :
    (∃ t, treeTarget H name deps = some t) ↔ Fits (Wanted deps) := by
  have hf : ∀ {s}, mergeDeps deps OMap.empty = some s → ∀ k d, s.find k = some d ↔ Wanted deps k d := by
    intro s hs k d
    rw [mergeDeps_find hs]
    simp
  constructor
  · rintro ⟨t, ht⟩
    obtain ⟨s, m, hs, hm, rfl⟩ := treeTarget_some ht
    refine (fits_stageable (hf hs) fun k d h => wanted_normal hn h).1 ?_
    unfold exprToTree at hm
    cases hc : treeConflict s with
    | ok => rfl
    | conflict p => rw [hc] at hm; cases hm
    | ub => rw [hc] at hm; cases hm
  · intro h
    obtain ⟨s, hs⟩ := mergeDeps_some (deps := deps) (s := OMap.empty) (by
      intro k a b ha hb
      simp only [OMap.find_empty, reduceCtorEq, false_or] at ha hb
      exact (h.free k a k b ha hb List.prefix_rfl).2)
    have hc := (fits_stageable (hf hs) fun k d h => wanted_normal hn h).2 h
    cases h2 : treeTarget H name deps with
    | some t => exact ⟨t, rfl⟩
    | none =>
      unfold treeTarget exprToTree at h2
      rw [hs, Option.bind_some, hc] at h2
      cases h2

/-- The order of the dependencies does not matter. -/
theorem C74_tree_order_partial (H : Hashes N) (name : Str) (deps deps' : List (Provided Desc)) (hn : NormalDeps deps)
    (hp : ∀ p, p ∈ deps ↔ p ∈ deps') : treeTarget H name deps = treeTarget H name deps' := by
  have hn' : NormalDeps deps' := fun p h => hn p ((hp p).2 h)
  have hw : Wanted deps = Wanted deps' := by
    funext k d
    simp only [Wanted, hp]
  have hc : ∀ s s', mergeDeps deps OMap.empty = some s → mergeDeps deps' OMap.empty = some s' → s = s' := by
    intro s s' hs hs'
    apply OMap.ext
    intro k
    apply Option.ext
    intro d
    rw [mergeDeps_find hs, mergeDeps_find hs', hw]
  have he := C74_tree_exact_partial H name deps hn
  have he' := C74_tree_exact_partial H name deps' hn'
  rw [hw, ← he'] at he
  cases h1 : treeTarget H name deps with
  | none =>
    cases h2 : treeTarget H name deps' with
    | none => rfl
    | some t => exact absurd (he.2 ⟨t, h2⟩) (by simp [h1])
  | some t =>
    obtain ⟨t', h2⟩ := he.1 ⟨t, h1⟩
    obtain ⟨s, m, hs, hm, rfl⟩ := treeTarget_some h1
    obtain ⟨s', m', hs', hm', rfl⟩ := treeTarget_some h2
    cases hc s s' hs hs'
    rw [hm] at hm'
    cases hm'
    exact h2.symm

/-! ## C74: overlays -/

/-- Missing: dependencies with stages not in normal form, see `C74_violation_lost`.

A `tree_overlay` or `disjoint_tree_overlay` target is a single overlay at its name, in the order of the dependencies, of
one tree for each, which contains precisely its artifacts. -/
theorem C74_overlay_partial (H : Hashes N) (name : Str) (disjoint : Bool) (deps : List (Provided Desc))
    (hn : NormalDeps deps) : ∃ parts, (overlayTarget H name disjoint deps).recorded.overlays = [(parts, disjoint)] ∧
      Single (overlayTarget H name disjoint deps) name (.overlay (overlayId H.h parts disjoint)) ∧
      List.Forall₂ (fun p d => ∃ c ∈ (overlayTarget H name disjoint deps).recorded.trees, d = .tree (treeId H.h c) ∧
        ∀ k x, (k, x) ∈ c ↔ p.artifacts.find k = some x) deps parts := by
  refine ⟨_, rfl, single_staged _ _ _, ?_⟩
  rw [List.forall₂_map_right_iff, List.forall₂_same]
  intro p hp
  refine ⟨depTree p, List.mem_map_of_mem hp, rfl, fun k x => ?_⟩
  unfold depTree
  rw [treeContent_self (hn p hp).1, OMap.mem_items]

/-! ## C74: globs -/

/-- A glob has as artifacts and as runfiles precisely the artifacts of the matching sources; for sources that agree on
common paths, as do different files of a directory. -/
theorem C74_glob (matching : List (Provided Desc))
    (hd : ∀ p ∈ matching, ∀ q ∈ matching, ∀ k a b, p.artifacts.find k = some a → q.artifacts.find k = some b → a = b)
    (k : Str) (d : Desc) :
    ((stageMap (globTarget matching : RuleTarget N).artifacts).find k = some d ↔
      ∃ p ∈ matching, p.artifacts.find k = some d) ∧
    (globTarget matching : RuleTarget N).runfiles = (globTarget matching).artifacts := by
  refine ⟨?_, rfl⟩
  have : (stageMap (globTarget matching : RuleTarget N).artifacts).find k =
      (matching.foldl (fun m d => over m d.artifacts) OMap.empty).find k := by
    unfold globTarget staged
    rw [artStage_find]
    rfl
  rw [this, foldl_over_find]
  simp only [OMap.find_empty, reduceCtorEq, and_false, or_false]
  constructor
  · rintro ⟨pre, x, post, rfl, h, -⟩
    exact ⟨x, by simp, h⟩
  · rintro ⟨p, hp, h⟩
    have key : ∀ l : List (Provided Desc), (∃ q ∈ l, q.artifacts.find k = some d) →
        (∀ q ∈ l, q ∈ matching) → LastOf Provided.artifacts l k d := by
      intro l
      induction l with
      | nil => rintro ⟨q, hq, -⟩; cases hq
      | cons q t ih =>
        rintro ⟨q', hq', h'⟩ hm
        by_cases ht : ∃ q ∈ t, q.artifacts.find k = some d
        · obtain ⟨pre, x, post, rfl, h1, h2⟩ := ih ht fun q hq => hm q (List.mem_cons_of_mem _ hq)
          exact ⟨q :: pre, x, post, rfl, h1, h2⟩
        · rcases List.mem_cons.1 hq' with rfl | hq'
          · refine ⟨[], q', t, rfl, h', fun y hy => ?_⟩
            cases hf : y.artifacts.find k with
            | none => rfl
            | some b =>
              have := hd q' (hm _ List.mem_cons_self) y (hm _ (List.mem_cons_of_mem _ hy)) k d b h' hf
              subst this
              exact absurd ⟨y, hy, hf⟩ ht
          · exact absurd ⟨q', hq', h'⟩ ht
    exact key matching ⟨p, hp, h⟩ fun _ h => h

/-! ## C74: source trees -/

mutual
/-- The artifact for an entry. -/
def entryDesc (H : Hashes N) (repo path : Str) : Entry → Desc
  | .file => .loc path repo
  | .dir es => .tree (treeId H.h (treeContent (entryItems H repo path es) OMap.empty).items)
/-- The artifacts for the entries of a directory. -/
def entryItems (H : Hashes N) (repo path : Str) : Entries → List (Str × Desc)
  | .nil => []
  | .cons n e t => (n, entryDesc H repo (append path n) e) :: entryItems H repo path t
end

theorem provided_staged (r : Rec N) (n : Str) (d : Desc) :
    (provided (staged r [(n, d)])).runfiles.items.head? = some (n, d) := by
  unfold provided staged stageMap
  rw [artItemsOf_some.2 rfl]
  rfl

mutual
theorem sourceTarget_eq (H : Hashes N) (repo module name : Str) (e : Entry) :
    ∃ r, sourceTarget H repo module name e = staged r [(name, entryDesc H repo (append module name) e)] ∧
      r.trees = match e with
        | .file => []
        | .dir es => [(treeContent (entryItems H repo (append module name) es) OMap.empty).items] := by
  cases e with
  | file => exact ⟨{}, by unfold sourceTarget entryDesc; rfl, rfl⟩
  | dir es =>
    refine ⟨{ trees := [(treeContent (entryItems H repo (append module name) es) OMap.empty).items] }, ?_, rfl⟩
    unfold sourceTarget entryDesc dirTarget
    rw [sourceTargets_eq]
theorem sourceTargets_eq (H : Hashes N) (repo module : Str) (es : Entries) :
    ((sourceTargets H repo module es).filterMap fun d => d.runfiles.items.head?) = entryItems H repo module es := by
  cases es with
  | nil => unfold sourceTargets entryItems; rfl
  | cons n e t =>
    unfold sourceTargets entryItems
    obtain ⟨r, hr, -⟩ := sourceTarget_eq H repo module n e
    rw [hr, List.filterMap_cons, provided_staged, sourceTargets_eq H repo module t]
end

theorem proper_place {n : Str} (h : ProperName n) : place n = ⟨false, 0, [n]⟩ ∧ toNormalPath n = n := by
  have h1 : place n = ⟨false, 0, [n]⟩ := by
    exact (Names.place_join [n] (by simpa using h)).1
  refine ⟨h1, ?_⟩
  rw [toNormalPath_eq, h1]
  simp [canon, Place.segs, joinWith]

theorem entryItems_fst (H : Hashes N) (repo path : Str) (es : Entries) :
    (entryItems H repo path es).map Prod.fst = es.names := by
  match es with
  | .nil => unfold entryItems Entries.names; rfl
  | .cons n e t =>
    unfold entryItems Entries.names
    rw [List.map_cons, entryItems_fst H repo path t]

theorem named_proper {es : Entries} (h : es.Named) : ∀ n ∈ es.names, ProperName n := by
  match es with
  | .nil => unfold Entries.names; simp
  | .cons n e t =>
    unfold Entries.Named at h
    unfold Entries.names
    intro m hm
    rcases List.mem_cons.1 hm with rfl | hm
    · exact h.1
    · exact named_proper h.2.2 m hm

theorem assoc_nodup {l : List (Str × Desc)} (hn : (l.map Prod.fst).Nodup) {k : Str} {d : Desc} (h : (k, d) ∈ l) :
    assoc k l = some d := by
  induction l with
  | nil => cases h
  | cons e t ih =>
    rw [List.map_cons, List.nodup_cons] at hn
    rcases List.mem_cons.1 h with rfl | h'
    · simp [assoc]
    · have : e.1 ≠ k := fun he => hn.1 (he ▸ List.mem_map_of_mem (f := Prod.fst) h')
      simp only [assoc]
      rw [if_neg (fun he => this he.symm)]
      exact ih hn.2 h'

theorem mem_entryTree {H : Hashes N} {repo path : Str} {es : Entries} (h1 : es.names.Nodup) (h2 : es.Named)
    (k : Str) (d : Desc) : (k, d) ∈ (treeContent (entryItems H repo path es) OMap.empty).items ↔
      (k, d) ∈ entryItems H repo path es := by
  have hn : ∀ e ∈ entryItems H repo path es, toNormalPath e.1 = e.1 := by
    intro e he
    refine (proper_place (named_proper h2 e.1 ?_)).2
    rw [← entryItems_fst H repo path es]
    exact List.mem_map_of_mem he
  rw [OMap.mem_items, treeContent_find _ _ hn]
  simp only [OMap.find_empty]
  constructor
  · exact assoc_some_mem
  · intro h
    exact assoc_nodup (by rw [entryItems_fst]; exact h1) h

theorem inDir_mem {es : Entries} {n : Str} {p : List Str} {x : Entry} (h : InDir es n p x) : n ∈ es.names := by
  match es with
  | .nil => unfold InDir at h; cases h
  | .cons m e t =>
    unfold InDir at h
    unfold Entries.names
    rcases h with ⟨rfl, -⟩ | h
    · exact List.mem_cons_self
    · exact List.mem_cons_of_mem _ (inDir_mem h)

mutual
theorem reaches_entry {H : Hashes N} {repo : Str} {T : List (List (Str × Desc))}
    (hT : ∀ t ∈ T, ∀ t' ∈ T, treeId H.h t = treeId H.h t' → t = t') (module name : Str) (e : Entry) (hn : e.Named)
    (hs : ∀ t ∈ sourceTrees H repo module name e, t ∈ T) (p : List Str) (x : Desc) :
    Reaches H T (entryDesc H repo (append module name) e) p x ↔
      ∃ e', At e p e' ∧ x = entryDesc H repo (p.foldl append (append module name)) e' := by
  cases e with
  | file =>
    constructor
    · intro h
      generalize hd : entryDesc H repo (append module name) Entry.file = d at h
      cases h with
      | here d =>
        subst hd
        exact ⟨.file, by unfold At; rfl, rfl⟩
      | step => unfold entryDesc at hd; cases hd
    · rintro ⟨e', h, rfl⟩
      cases p with
      | nil => unfold At at h; subst h; exact .here _
      | cons n p => unfold At at h; cases h
  | dir es =>
    unfold Entry.Named at hn
    have hm : (treeContent (entryItems H repo (append module name) es) OMap.empty).items ∈ T := by
      apply hs
      unfold sourceTrees
      obtain ⟨r, hr, ht⟩ := sourceTarget_eq H repo module name (.dir es)
      rw [hr]
      exact List.mem_append_left _ (by rw [show (staged r _).recorded.trees = r.trees from rfl, ht]; simp)
    have hi : ∀ t ∈ sourceTreesIn H repo (append module name) es, t ∈ T := by
      intro t ht
      apply hs
      unfold sourceTrees
      exact List.mem_append_right _ ht
    constructor
    · intro h
      generalize hd : entryDesc H repo (append module name) (Entry.dir es) = d at h
      cases h with
      | here d =>
        subst hd
        exact ⟨.dir es, by unfold At; rfl, rfl⟩
      | @step t k d x p ht hk hr =>
        unfold entryDesc at hd
        simp only [Desc.tree.injEq] at hd
        rw [← hT _ hm _ ht hd, mem_entryTree hn.1 hn.2] at hk
        obtain ⟨hk1, e', h1, h2⟩ := (reaches_entries hT (append module name) es hn.2 hi k p x).1 ⟨d, hk, hr⟩
        rw [hk1]
        exact ⟨e', by rw [List.singleton_append]; unfold At; exact h1, by rw [List.singleton_append]; exact h2⟩
    · rintro ⟨e', h, rfl⟩
      cases p with
      | nil => unfold At at h; subst h; exact .here _
      | cons n p =>
        unfold At at h
        have hp : ProperName n := named_proper hn.2 n (inDir_mem h)
        obtain ⟨d, h1, h2⟩ := (reaches_entries hT (append module name) es hn.2 hi n p _).2
          ⟨by rw [(proper_place hp).1], e', h, rfl⟩
        have := Reaches.step hm ((mem_entryTree hn.1 hn.2 n d).2 h1) h2
        rw [(proper_place hp).1] at this
        rw [show entryDesc H repo (append module name) (Entry.dir es) = .tree (treeId H.h (treeContent
          (entryItems H repo (append module name) es) OMap.empty).items) by rw [entryDesc]]
        exact this
theorem reaches_entries {H : Hashes N} {repo : Str} {T : List (List (Str × Desc))}
    (hT : ∀ t ∈ T, ∀ t' ∈ T, treeId H.h t = treeId H.h t' → t = t') (path : Str) (es : Entries) (hn : es.Named)
    (hs : ∀ t ∈ sourceTreesIn H repo path es, t ∈ T) (k : Str) (p : List Str) (x : Desc) :
    (∃ d, (k, d) ∈ entryItems H repo path es ∧ Reaches H T d p x) ↔
      (place k).down = [k] ∧ ∃ e', InDir es k p e' ∧ x = entryDesc H repo (p.foldl append (append path k)) e' := by
  cases es with
  | nil =>
    unfold entryItems InDir
    simp
  | cons n e t =>
    unfold Entries.Named at hn
    unfold sourceTreesIn at hs
    have h1 := reaches_entry hT path n e hn.2.1 (fun t ht => hs t (List.mem_append_left _ ht)) p x
    have h2 := reaches_entries hT path t hn.2.2 (fun t ht => hs t (List.mem_append_right _ ht)) k p x
    have h3 := proper_place hn.1
    unfold entryItems InDir
    constructor
    · rintro ⟨d, hk, hr⟩
      rcases List.mem_cons.1 hk with hk | hk
      · cases hk
        obtain ⟨e', h4, h5⟩ := h1.1 hr
        exact ⟨by rw [h3.1], e', .inl ⟨rfl, h4⟩, h5⟩
      · obtain ⟨h4, e', h5, h6⟩ := h2.1 ⟨d, hk, hr⟩
        exact ⟨h4, e', .inr h5, h6⟩
    · rintro ⟨h4, e', h5 | h5, h6⟩
      · obtain ⟨rfl, h5⟩ := h5
        exact ⟨_, List.mem_cons_self, h1.2 ⟨e', h5, h6⟩⟩
      · obtain ⟨d, h7, h8⟩ := h2.2 ⟨h4, e', h5, h6⟩
        exact ⟨d, List.mem_cons_of_mem _ h7, h8⟩
end

/-- The target for a directory of a workspace that is not given by a git tree is a single tree at its name.  Below it,
at each path there is precisely what is there in the workspace, the files as the local files at this path, also if the
directory is empty. -/
theorem C74_source_tree (H : Hashes N) (repo module name : Str) (e : Entry) (hn : e.Named)
    (T : List (List (Str × Desc))) (hT : ∀ t ∈ T, ∀ t' ∈ T, treeId H.h t = treeId H.h t' → t = t')
    (hs : ∀ t ∈ sourceTrees H repo module name e, t ∈ T) :
    ∃ d, Single (sourceTarget H repo module name e) name d ∧
      (∀ p l r, Reaches H T d p (.loc l r) ↔ At e p .file ∧ l = p.foldl append (append module name) ∧ r = repo) ∧
      (∀ p, (∃ id, Reaches H T d p (.tree id)) ↔ ∃ es, At e p (.dir es)) ∧
      ∀ p x, Reaches H T d p x → (∃ l, x = .loc l repo) ∨ ∃ id, x = .tree id := by
  obtain ⟨r, hr, -⟩ := sourceTarget_eq H repo module name e
  refine ⟨_, hr ▸ single_staged _ _ _, ?_, ?_, ?_⟩
  · intro p l r
    rw [reaches_entry hT module name e hn hs]
    constructor
    · rintro ⟨e', h1, h2⟩
      cases e' with
      | file => unfold entryDesc at h2; cases h2; exact ⟨h1, rfl, rfl⟩
      | dir es => unfold entryDesc at h2; cases h2
    · rintro ⟨h1, rfl, rfl⟩
      exact ⟨_, h1, by unfold entryDesc; rfl⟩
  · intro p
    simp only [reaches_entry hT module name e hn hs]
    constructor
    · rintro ⟨id, e', h1, h2⟩
      cases e' with
      | file => unfold entryDesc at h2; cases h2
      | dir es => exact ⟨es, h1⟩
    · rintro ⟨es, h⟩
      exact ⟨_, _, h, by unfold entryDesc; rfl⟩
  · intro p x h
    rw [reaches_entry hT module name e hn hs] at h
    obtain ⟨e', -, rfl⟩ := h
    cases e' with
    | file => exact .inl ⟨_, by unfold entryDesc; rfl⟩
    | dir es => exact .inr ⟨_, by unfold entryDesc; rfl⟩

/-! ## C74: references -/

theorem foldl_follow_abs (l : List Str) (P : Place) : (l.foldl Place.follow P).abs = P.abs := by
  induction l generalizing P with
  | nil => rfl
  | cons a t ih =>
    rw [List.foldl_cons, ih]
    unfold Place.follow
    repeat' split
    all_goals rfl

theorem place_abs (s : Str) : (place s).abs = isAbs s := by
  rw [place_eq, foldl_follow_abs]

theorem place_lexNormal (s : Str) : place (lexNormal s) = place s := by
  by_cases hs : s = []
  · subst hs; rfl
  rcases lexNormal_eq s hs with h | ⟨h, hn, -⟩
  · rw [h, place_canon (wf_place s)]
  · rw [h, place_eq, names_append_slash]
    have hc : canon (place s) ≠ [] := by
      intro hc
      have := place_canon (wf_place s)
      rw [hc] at this
      rw [← this] at hn
      exact hn rfl
    have ha : isAbs (canon (place s) ++ ['/']) = isAbs (canon (place s)) := by
      cases h : canon (place s) with
      | nil => exact absurd h hc
      | cons c t => rfl
    rw [ha, ← place_eq, place_canon (wf_place s)]

/-- Missing: the empty name, see `C74_violation_empty_name`.

A reference to a file by a name is accepted iff the name does not lead out of the module; the file is then read from
below the module. -/
theorem C74_file_reference_partial (module name : Str) (hne : name ≠ []) :
    ((∃ p, fileReference module name = .ok p) ↔ name.head? ≠ some '/' ∧ NeverAbove (splitAt '/' name)) ∧
    ∀ p, fileReference module name = .ok p →
      place p = { place module with down := (place module).down ++ (place name).down } := by
  obtain ⟨b, h1, h2⟩ := C40_non_upwards_partial name hne
  obtain ⟨b', h1', h3⟩ := nonUpwards_eq name hne
  rw [h1] at h1'
  cases h1'
  unfold fileReference
  rw [h1]
  cases b with
  | false =>
    simp only [reduceCtorEq, exists_false, false_iff, false_imp_iff, implies_true, and_true]
    exact fun h => by simpa using h2.2 h
  | true =>
    refine ⟨⟨fun _ => h2.1 rfl, fun _ => ⟨_, rfl⟩⟩, ?_⟩
    intro p hp
    cases hp
    have h4 := h3.1 rfl
    have h5 : (place name).abs = false := by rw [place_abs, h4.1]
    rw [place_below _ _ (by rw [place_lexNormal]; exact h5) (by rw [place_lexNormal]; exact h4.2), place_lexNormal]

/-! ## C74: generated files and symbolic links -/

/-- A `file_gen` target is a single file at its name, with the given content. -/
theorem C74_file_gen (H : Hashes N) (name data : Str) :
    Single (fileGen H name data) name (.known (H.file data) .file none) ∧ (fileGen H name data).recorded.blobs = [data] :=
  ⟨single_staged _ _ _, rfl⟩

/-- Missing: the empty link, which is accepted here though the check of it is undefined behaviour, see `C40_violation`.

A `symlink` target is accepted iff its link is relative and never leads above where it starts; it then is a single
symbolic link at its name, with the given content. -/
theorem C74_symlink_partial (H : Hashes N) (name data : Str) (hne : data ≠ []) :
    ((∃ t, linkGen H name data = some t) ↔ data.head? ≠ some '/' ∧ NeverAbove (splitAt '/' data)) ∧
    ∀ t, linkGen H name data = some t →
      Single t name (.known (H.link data) .symlink none) ∧ t.recorded.blobs = [data] := by
  obtain ⟨b, h1, h2⟩ := C40_non_upwards_partial data hne
  have he : data.isEmpty = false := by cases data <;> simp_all
  unfold linkGen
  rw [h1, he, ← h2]
  cases b with
  | false => simp
  | true =>
    refine ⟨⟨fun _ => rfl, fun _ => ⟨_, rfl⟩⟩, fun t ht => ?_⟩
    cases ht
    exact ⟨single_staged _ _ _, rfl⟩

/-! ## Examples -/

-- A link within the tree, and one leading out of it.
example : (∃ t, linkGen exampleHashes "l".toList "a/../b".toList = some t) ∧
    ¬ ∃ t, linkGen exampleHashes "l".toList "a/../../b".toList = some t := by
  refine ⟨⟨_, rfl⟩, ?_⟩
  rw [show linkGen exampleHashes "l".toList "a/../../b".toList = none from rfl]
  exact fun ⟨_, h⟩ => nomatch h

/-- Two targets: one with a runfile at the same path as an artifact. -/
def exampleTwo : List (Provided Desc) :=
  [⟨omapOf [("a".toList, .loc "x".toList [])], omapOf [("a".toList, .loc "y".toList []), ("b/c".toList, .loc "z".toList [])]⟩,
   ⟨omapOf [("b/d".toList, .loc "x".toList [])], omapOf []⟩]

theorem exampleTwo_normal : NormalDeps exampleTwo := by
  have h : ∀ l : List (Str × Desc), (∀ e ∈ l, toNormalPath e.1 = e.1) →
      ∀ k d, (omapOf l).find k = some d → toNormalPath k = k := by
    intro l hl k d hk
    rw [find_omapOf] at hk
    exact hl _ (assoc_some_mem hk)
  intro p hp
  simp only [exampleTwo, List.mem_cons, List.not_mem_nil, or_false] at hp
  rcases hp with rfl | rfl <;> exact ⟨h _ (by decide), h _ (by decide)⟩

-- The tree has the artifact at `a`, not the runfile.
example : ∃ t, treeTarget exampleHashes "t".toList exampleTwo = some t ∧
    t.recorded.trees = [[("a".toList, .loc "x".toList []), ("b/c".toList, .loc "z".toList []),
      ("b/d".toList, .loc "x".toList [])]] := by
  have : (treeTarget exampleHashes "t".toList exampleTwo).map (fun t => t.recorded.trees) =
      some [[("a".toList, .loc "x".toList []), ("b/c".toList, .loc "z".toList []),
        ("b/d".toList, .loc "x".toList [])]] := by decide +kernel
  obtain ⟨t, h1, h2⟩ := Option.map_eq_some_iff.1 this
  exact ⟨t, h1, h2⟩

example : Fits (Wanted exampleTwo) := by
  refine (C74_tree_exact_partial exampleHashes "t".toList exampleTwo exampleTwo_normal).1 ?_
  have : (treeTarget exampleHashes "t".toList exampleTwo).isSome = true := by decide +kernel
  exact Option.isSome_iff_exists.1 this

-- Two different artifacts at one path do not fit.
example : treeTarget exampleHashes "t".toList
    [⟨omapOf [("a".toList, .loc "x".toList [])], omapOf []⟩, ⟨omapOf [("a".toList, .loc "y".toList [])], omapOf []⟩] =
      none := by
  have : (treeTarget exampleHashes "t".toList
    [⟨omapOf [("a".toList, .loc "x".toList [])], omapOf []⟩,
      ⟨omapOf [("a".toList, .loc "y".toList [])], omapOf []⟩]).isSome = false := by decide +kernel
  simpa using this

-- The overlay takes artifacts only.
example : (overlayTarget exampleHashes "t".toList true exampleTwo).recorded.trees =
    [[("a".toList, .loc "x".toList [])], [("b/d".toList, .loc "x".toList [])]] := by decide +kernel

-- A glob matching the two.
example : (stageMap (globTarget exampleTwo : RuleTarget Unit).artifacts).find "b/d".toList = some (.loc "x".toList []) :=
  ((C74_glob (N := Unit) exampleTwo (by
    intro p hp q hq k a b h1 h2
    simp only [exampleTwo, List.mem_cons, List.not_mem_nil, or_false] at hp hq
    rcases hp with rfl | rfl <;> rcases hq with rfl | rfl <;> simp only [find_omapOf, assoc] at h1 h2 <;>
      split at h1 <;> split at h2 <;> simp_all) _ _).1).2
    ⟨_, List.mem_cons_of_mem _ List.mem_cons_self, by rfl⟩

/-- A directory with a file, an empty directory, and a directory with a file. -/
def exampleDirectory : Entry :=
  .dir (.cons "f".toList .file (.cons "e".toList (.dir .nil) (.cons "d".toList (.dir (.cons "g".toList .file .nil)) .nil)))

theorem exampleDirectory_named : exampleDirectory.Named := by
  simp only [exampleDirectory, Entry.Named, Entries.Named, Entries.names, ProperName]
  decide

theorem exampleDirectory_faithful :
    ∀ t ∈ sourceTrees exampleHashes "r".toList "m".toList "s".toList exampleDirectory,
      ∀ t' ∈ sourceTrees exampleHashes "r".toList "m".toList "s".toList exampleDirectory,
        treeId exampleHashes.h t = treeId exampleHashes.h t' → t = t' := by
  decide +kernel

-- The file is found below the tree.
example : ∃ d, Single (sourceTarget exampleHashes "r".toList "m".toList "s".toList exampleDirectory) "s".toList d ∧
    Reaches exampleHashes (sourceTrees exampleHashes "r".toList "m".toList "s".toList exampleDirectory) d
      ["d".toList, "g".toList] (.loc "m/s/d/g".toList "r".toList) := by
  obtain ⟨d, h1, h2, -⟩ := C74_source_tree exampleHashes "r".toList "m".toList "s".toList exampleDirectory
    exampleDirectory_named _ exampleDirectory_faithful (fun _ h => h)
  refine ⟨d, h1, (h2 _ _ _).2 ⟨?_, by decide, rfl⟩⟩
  simp only [exampleDirectory, At, InDir]
  decide

example : fileReference "m".toList "a//../b".toList = .ok "m/b".toList := by decide

/-! ## Violations -/

/-- The names of `file_gen`, `symlink`, `tree` and overlay targets are not checked: such a target can be installed
outside of the output directory. -/
theorem C74_violation_outside (H : Hashes N) (data : Str) :
    Single (fileGen H "../x".toList data) "../x".toList (.known (H.file data) .file none) ∧
    (∃ t d, treeTarget H "../x".toList [] = some t ∧ Single t "../x".toList d) ∧
    place (outputPath "/home/user/out".toList "../x".toList) = place "/home/user/x".toList ∧
    place (outputPath "/home/user/out".toList "/x".toList) = place "/x".toList := by
  refine ⟨single_staged _ _ _, ?_, by decide, by decide⟩
  exact ⟨_, _, rfl, single_staged _ _ _⟩

/-- Of two files with names denoting the same place, a `tree` silently contains only one; and in the tree for an
overlay, the same happens within a single dependency. -/
theorem C74_violation_lost : ∃ (a b : Desc) (t : RuleTarget Unit), a ≠ b ∧
    treeTarget exampleHashes "t".toList [provided (fileGen exampleHashes "./x".toList "1".toList),
      provided (fileGen exampleHashes "x".toList "2".toList)] = some t ∧
    Wanted [provided (fileGen exampleHashes "./x".toList "1".toList),
      provided (fileGen exampleHashes "x".toList "2".toList)] "./x".toList a ∧
    Wanted [provided (fileGen exampleHashes "./x".toList "1".toList),
      provided (fileGen exampleHashes "x".toList "2".toList)] "x".toList b ∧
    t.recorded.trees = [[("x".toList, a)]] ∧
    depTree ⟨omapOf [("./x".toList, a), ("x".toList, b)], omapOf []⟩ = [("x".toList, a)] := by
  have : (treeTarget exampleHashes "t".toList [provided (fileGen exampleHashes "./x".toList "1".toList),
      provided (fileGen exampleHashes "x".toList "2".toList)]).map (fun t => t.recorded.trees) =
      some [[("x".toList, .known (exampleHashes.file "1".toList) .file none)]] := by decide +kernel
  obtain ⟨t, h1, h2⟩ := Option.map_eq_some_iff.1 this
  refine ⟨.known (exampleHashes.file "1".toList) .file none, .known (exampleHashes.file "2".toList) .file none, t,
    by decide +kernel, h1, ⟨_, List.mem_cons_self, .inl (by rfl)⟩,
    ⟨_, List.mem_cons_of_mem _ List.mem_cons_self, .inl (by rfl)⟩, h2, by decide +kernel⟩

/-- The default name of a `tree` target is empty.  If another `tree` depends on it, the check for conflicts dereferences
the begin of an empty path. -/
theorem C74_violation_unnamed : ∃ (t : RuleTarget Unit) (s : OMap Str Desc), treeTarget exampleHashes [] [] = some t ∧
    mergeDeps [provided t] OMap.empty = some s ∧ exprToTree s = .ub := by
  obtain ⟨s, hs⟩ := mergeDeps_some (deps := [provided (staged { trees := [[]] } [([], .tree (treeId exampleHashes.h []))] :
    RuleTarget Unit)]) (s := OMap.empty) (by
      intro k a b ha hb
      simp only [Wanted, List.mem_singleton, exists_eq_left, OMap.find_empty, reduceCtorEq, false_or, ← wins_iff] at ha hb
      exact Option.some.inj (ha.symm.trans hb))
  refine ⟨_, s, rfl, hs, ?_⟩
  have : s = omapOf [([], .tree (treeId exampleHashes.h []))] := by
    apply OMap.ext
    intro k
    apply Option.ext
    intro d
    rw [mergeDeps_find hs, find_omapOf]
    simp only [Wanted, List.mem_singleton, exists_eq_left, OMap.find_empty, reduceCtorEq, false_or, Wins, provided, staged,
      artStage_find]
    cases assoc k [([], Desc.tree (treeId exampleHashes.h []))] <;> simp
  subst this
  rfl

/-- The empty name of a file is undefined behaviour, see also C40. -/
theorem C74_violation_empty_name (module : Str) : fileReference module [] = .ub := rfl

/-- References to trees are not checked, in contrast to those to files: they can lead out of the module and out of the
workspace. -/
theorem C74_violation_tree_reference :
    fileReference "m".toList "../../home".toList = .error ∧
    treeReference "m".toList "../../home".toList = .ok "m/../../home".toList ∧
    place (append "/work/space".toList "m/../../home".toList) = place "/work/home".toList ∧
    fileReference "m".toList "/home".toList = .error ∧ treeReference "m".toList "/home".toList = .ok "/home".toList := by
  decide

end Verif.Analyse.Rule
