import Verif.Analyse.BuiltinTargets
import Verif.Stage.InstallProps
import Verif.Dag.Marks

/-!
# C73: results of untainted targets do not come from actions that may fail or must not be cached

-/

set_option linter.unusedSectionVars false

namespace Verif.Analyse.Rule

open Verif.Action Verif.Art Verif.Dig Verif.Expr Verif.Path Verif.Stage
open Verif.Names (Entity)

variable {N : Type}

/-! ## Statements -/

/-- An analysed target with its taints.  For an anonymous target, `origin` contains the taints of the target its node
was taken from; this is not part of the analysed target in the code. -/
structure TaintedTarget (N : Type) where
  val : RuleTarget N
  taint : List Str
  origin : List Str

/-- target_map.cpp:1399-1441, and target_map.cpp:197-262 for the fields of abstract nodes: the nodes for which
anonymous targets are made. -/
inductive NodeOf (provides : Value N) : Value N → Prop
  | provider {m : List (Str × Value N)} {k : Str} {l : List (Value N)} {v : Value N} :
      provides = .map m → (k, .list l) ∈ m → v ∈ l → NodeOf provides v
  | field {type : Str} {strings : Value N} {u : List (Str × Value N)} {k : Str} {l : List (Value N)} {v : Value N} :
      NodeOf provides (.absNode type strings (.map u)) → (k, .list l) ∈ u → v ∈ l → NodeOf provides v

/-- Dependencies (among the targets analysed) of a target with these taints; `origin` is that of the target.  All
their taints are taints of the target.  A dependency is a named target, or, if the target is anonymous, a node taken
from the same target, or a node of another dependency (target_map.cpp:427-444, 1399-1480, built_in_rules.cpp:224-236,
and likewise in the other rules). -/
def Depends (l ds : List (TaintedTarget N)) (taint origin : List Str) : Prop :=
  ∀ d ∈ ds, d ∈ l ∧ d.taint ⊆ taint ∧ (d.origin = [] ∨ d.origin = origin ∨
    ∃ p ∈ ds, (p.origin = [] ∨ p.origin = origin) ∧ d.origin = p.taint ++ p.origin)

/-- Dependencies of a target of a built-in rule, which are named. -/
def NamedDeps (l ds : List (TaintedTarget N)) (taint : List Str) : Prop :=
  ∀ d ∈ ds, d ∈ l ∧ d.taint ⊆ taint ∧ d.origin = []

/-- Everything recorded for the targets. -/
def recordedFor (l : List (TaintedTarget N)) : Rec N := recordedAll (l.map TaintedTarget.val)

variable [DecidableEq N]

/-- Analysis of targets one after the other (the last one first).  `source` are the artifacts of source files and
results found in a target-level cache. -/
inductive Checked (H : Hashes N) (source : Desc → Prop) : List (TaintedTarget N) → Prop
  | nil : Checked H source []
  /-- source files, trees known from git, results found in a cache -/
  | source {l : List (TaintedTarget N)} {t : RuleTarget N} (taint : List Str) : Checked H source l →
      t.All source → Checked H source (⟨t, taint, []⟩ :: l)
  /-- a target defined by a rule, also for an abstract node; the rule has the taints of the target
  (target_map.cpp:427-433) -/
  | rule {l : List (TaintedTarget N)} {a p r : Value N} (ds : List (TaintedTarget N)) (origin : List Str) (c : Ctx N)
      (O : Ops N Desc) (n : Nat) (f : Fn N Desc) (ρ : Env N Desc) : Checked H source l → c.hashes = H →
      (∀ e ∈ c.params, Arts (fun _ => False) e.2) → (∀ x, Arts (fun _ => False) (ρ x)) → Written f →
      Depends l ds c.tainted origin →
      (∀ e tr a p r, c.deps e tr = some (a, p, r) → ∃ d ∈ ds, d.val.artifacts = a ∧ d.val.provides = p ∧
        d.val.runfiles = r) →
      ruleResult c O n f ρ = some (a, p, r) → Checked H source (⟨⟨c.final, a, p, r⟩, c.tainted, origin⟩ :: l)
  /-- an anonymous target for a value node; it has no taints (target_map.cpp:1633-1646) -/
  | valueNode {l : List (TaintedTarget N)} {a p r : Value N} (d : TaintedTarget N) : Checked H source l → d ∈ l →
      NodeOf d.val.provides (.valueNode (.result a p r)) →
      Checked H source (⟨⟨{}, a, p, r⟩, [], d.taint ++ d.origin⟩ :: l)
  /-- `file_gen` -/
  | fileGen {l : List (TaintedTarget N)} (name data : Str) (taint : List Str) : Checked H source l →
      Checked H source (⟨fileGen H name data, taint, []⟩ :: l)
  /-- `symlink` -/
  | linkGen {l : List (TaintedTarget N)} {t : RuleTarget N} (name data : Str) (taint : List Str) :
      Checked H source l → linkGen H name data = some t → Checked H source (⟨t, taint, []⟩ :: l)
  /-- `tree` -/
  | tree {l : List (TaintedTarget N)} {t : RuleTarget N} (ds : List (TaintedTarget N)) (name : Str)
      (taint : List Str) : Checked H source l → NamedDeps l ds taint →
      treeTarget H name (ds.map fun d => provided d.val) = some t → Checked H source (⟨t, taint, []⟩ :: l)
  /-- `tree_overlay` and `disjoint_tree_overlay` -/
  | overlay {l : List (TaintedTarget N)} (ds : List (TaintedTarget N)) (name : Str) (disjoint : Bool)
      (taint : List Str) : Checked H source l → NamedDeps l ds taint →
      Checked H source (⟨overlayTarget H name disjoint (ds.map fun d => provided d.val), taint, []⟩ :: l)
  /-- `install` -/
  | install {l : List (TaintedTarget N)} {t : RuleTarget N} (ds : List (TaintedTarget N))
      (d : InstallDesc (RuleTarget N)) (taint : List Str) : Checked H source l → NamedDeps l ds taint →
      (∀ x, x ∈ d.deps ∨ x ∈ d.files.map Prod.snd ∨ x ∈ d.dirs.map Prod.fst → x ∈ ds.map TaintedTarget.val) →
      installTarget d = some t → Checked H source (⟨t, taint, []⟩ :: l)
  /-- `generic` -/
  | generic {l : List (TaintedTarget N)} {t : RuleTarget N} (ds : List (TaintedTarget N)) (one : N)
      (c : GenericCall N) (taint : List Str) : Checked H source l → NamedDeps l ds taint →
      genericTarget H one (ds.map fun d => provided d.val) c = some t → Checked H source (⟨t, taint, []⟩ :: l)
  /-- a source tree not known from git; its entries are source targets -/
  | dir {l : List (TaintedTarget N)} (ds : List (TaintedTarget N)) (name : Str) : Checked H source l →
      NamedDeps l ds [] → Checked H source (⟨dirTarget H name (ds.map fun d => provided d.val), [], []⟩ :: l)
  /-- a glob; the matching files are source targets -/
  | glob {l : List (TaintedTarget N)} (ds : List (TaintedTarget N)) : Checked H source l → NamedDeps l ds [] →
      Checked H source (⟨globTarget (ds.map fun d => provided d.val), [], []⟩ :: l)
  /-- `configure` (built_in_rules.cpp:1600-1700) -/
  | configure {l : List (TaintedTarget N)} (d : TaintedTarget N) (taint : List Str) : Checked H source l →
      NamedDeps l [d] taint →
      Checked H source (⟨{ d.val with recorded := {} }, taint, []⟩ :: l)
  /-- `export`, when the target is analysed; it must not be tainted (export.cpp:66-150) -/
  | exported {l : List (TaintedTarget N)} (d : TaintedTarget N) : Checked H source l → NamedDeps l [d] [] →
      Checked H source (⟨{ d.val with recorded := {} }, [], []⟩ :: l)

/-- Neither allowed to fail nor excluded from caching. -/
def Strict (a : Act N) : Prop := a.mayFail = none ∧ a.noCache = false

instance (a : Act N) : Decidable (Strict a) := inferInstanceAs (Decidable (_ ∧ _))

/-- The same, without the actions that may fail or must not be cached. -/
def strictly (R : Rec N) : Rec N := { R with actions := R.actions.filter fun a => decide (Strict a) }

/-! ## Lemmas -/

/-- The same, with only some of the actions. -/
def onlyActions (ok : Act N → Bool) (R : Rec N) : Rec N := { R with actions := R.actions.filter ok }

theorem avail_tail {ok : Act N → Bool} {t : TaintedTarget N} {l : List (TaintedTarget N)} {D : Desc → Prop}
    {H : Hashes N} {d : Desc} (h : Avail H (onlyActions ok (recordedFor l)) D d) :
    Avail H (onlyActions ok (recordedFor (t :: l))) D d := by
  refine avail_mono ?_ ?_ ?_ ?_ (fun d hd => .given hd) h
  · intro a ha
    simp only [onlyActions, recordedFor, recordedAll, List.map_cons, List.flatMap_cons, List.mem_filter,
      List.mem_append] at ha ⊢
    exact ⟨Or.inr ha.1, ha.2⟩
  all_goals
    intro a ha
    simp only [onlyActions, recordedFor, recordedAll, List.map_cons, List.flatMap_cons, List.mem_append] at ha ⊢
    exact Or.inr ha

theorem head_action {ok : Act N → Bool} {t : TaintedTarget N} {l : List (TaintedTarget N)} {a : Act N}
    (h : a ∈ t.val.recorded.actions) (ho : ok a = true) :
    a ∈ (onlyActions ok (recordedFor (t :: l))).actions := by
  simp only [onlyActions, recordedFor, recordedAll, List.map_cons, List.flatMap_cons, List.mem_filter,
    List.mem_append]
  exact ⟨Or.inl h, ho⟩

theorem head_blob {ok : Act N → Bool} {t : TaintedTarget N} {l : List (TaintedTarget N)} {b : Str}
    (h : b ∈ t.val.recorded.blobs) : b ∈ (onlyActions ok (recordedFor (t :: l))).blobs := by
  simp only [onlyActions, recordedFor, recordedAll, List.map_cons, List.flatMap_cons, List.mem_append]
  exact Or.inl h

theorem head_tree {ok : Act N → Bool} {t : TaintedTarget N} {l : List (TaintedTarget N)} {b : List (Str × Desc)}
    (h : b ∈ t.val.recorded.trees) : b ∈ (onlyActions ok (recordedFor (t :: l))).trees := by
  simp only [onlyActions, recordedFor, recordedAll, List.map_cons, List.flatMap_cons, List.mem_append]
  exact Or.inl h

theorem head_overlay {ok : Act N → Bool} {t : TaintedTarget N} {l : List (TaintedTarget N)} {b : List Desc × Bool}
    (h : b ∈ t.val.recorded.overlays) : b ∈ (onlyActions ok (recordedFor (t :: l))).overlays := by
  simp only [onlyActions, recordedFor, recordedAll, List.map_cons, List.flatMap_cons, List.mem_append]
  exact Or.inl h

theorem arts_map {Q : Desc → Prop} {l : List (Str × Desc)} :
    Arts Q (artMap l : Value N) ↔ ∀ e ∈ l, Q e.2 := by
  unfold Arts
  rw [deep_arts]
  exact ⟨fun h e he => h e he _ rfl, fun h e he d hd => by cases hd; exact h e he⟩

theorem arts_empty {Q : Desc → Prop} : Arts Q (.map [] : Value N) := by
  simp [Arts, Deep, DeepItems]

theorem staged_all {Q : Desc → Prop} {r : Rec N} {l : List (Str × Desc)} (h : ∀ e ∈ l, Q e.2) :
    (staged r l).All Q := ⟨arts_map.2 h, arts_empty, arts_map.2 h⟩

theorem stageMap_find {Q : Desc → Prop} {v : Value N} (hv : Arts Q v) {k : Str} {d : Desc}
    (h : (stageMap v).find k = some d) : Q d := by
  unfold stageMap at h
  rw [find_omapOf] at h
  cases hl : artItemsOf v with
  | none => rw [hl] at h; simp [assoc] at h
  | some l =>
    rw [hl] at h
    rw [artItemsOf_some.1 hl, arts_map] at hv
    exact hv _ (assoc_some_mem h)

/-- All artifacts offered have the property. -/
def Offers (Q : Desc → Prop) (p : Provided Desc) : Prop :=
  (∀ k d, p.artifacts.find k = some d → Q d) ∧ ∀ k d, p.runfiles.find k = some d → Q d

theorem provided_offers {Q : Desc → Prop} {t : RuleTarget N} (h : t.All Q) : Offers Q (provided t) :=
  ⟨fun _ _ hd => stageMap_find h.1 hd, fun _ _ hd => stageMap_find h.2.2 hd⟩

theorem over_all {Q : Desc → Prop} {m n : OMap Str Desc} (hm : ∀ k d, m.find k = some d → Q d)
    (hn : ∀ k d, n.find k = some d → Q d) : ∀ k d, (over m n).find k = some d → Q d := by
  intro k d h
  rw [find_over] at h
  cases hk : n.find k with
  | none => rw [hk, Option.none_or] at h; exact hm k d h
  | some x => rw [hk, Option.some_or] at h; cases h; exact hn k _ hk

theorem empty_all {Q : Desc → Prop} : ∀ k d, (OMap.empty : OMap Str Desc).find k = some d → Q d := by
  intro k d h
  simp [OMap.empty, OMap.find, assoc] at h

theorem content_all {Q : Desc → Prop} {l : List (Str × Desc)} (h : ∀ e ∈ l, Q e.2) :
    ∀ e ∈ (treeContent l OMap.empty).items, Q e.2 := by
  rintro ⟨k, d⟩ he
  rcases treeContent_mem _ _ _ _ (OMap.mem_items.1 he) with h1 | ⟨⟨k', d'⟩, he', rfl⟩
  · exact empty_all (Q := Q) k d h1
  · exact h (k', d') he'

theorem items_all {Q : Desc → Prop} {m : OMap Str Desc} (h : ∀ k d, m.find k = some d → Q d) :
    ∀ e ∈ m.items, Q e.2 := fun e he => h e.1 e.2 (OMap.mem_items.1 he)

theorem mergeDeps_all {Q : Desc → Prop} : ∀ {deps : List (Provided Desc)} {s m : OMap Str Desc},
    (∀ p ∈ deps, Offers Q p) → (∀ k d, s.find k = some d → Q d) → mergeDeps deps s = some m →
    ∀ k d, m.find k = some d → Q d
  | [], s, m, _, hs, h => by cases h; exact hs
  | p :: t, s, m, hp, hs, h => by
    unfold mergeDeps at h
    split at h
    · cases h
    · have hpp := hp p List.mem_cons_self
      exact mergeDeps_all (fun q hq => hp q (List.mem_cons_of_mem _ hq))
        (over_all hs (over_all hpp.2 hpp.1)) h

theorem stageFiles_all {Q : Desc → Prop} {T : Type} {E : T → Provided Desc} {s : OMap Str Desc} :
    ∀ {l : List (Str × T)} {fs m : OMap Str Desc}, (∀ e ∈ l, Offers Q (E e.2)) →
    (∀ k d, fs.find k = some d → Q d) → stageFiles E s l fs = .ok m → ∀ k d, m.find k = some d → Q d
  | [], fs, m, _, hs, h => by cases h; exact hs
  | (path, t) :: rest, fs, m, hp, hs, h => by
    unfold stageFiles at h
    split at h
    · cases h
    split at h
    · cases h
    · rename_i e he
      refine stageFiles_all (fun q hq => hp q (List.mem_cons_of_mem _ hq)) ?_ h
      intro k d hk
      rw [OMap.find_emplace] at hk
      have ho := hp (path, t) List.mem_cons_self
      have hQ : Q e.2 := by
        have hmem : e ∈ (fileSource (E t)).items := by rw [he]; simp
        unfold fileSource at hmem
        split at hmem
        · exact ho.2 e.1 e.2 (OMap.mem_items.1 hmem)
        · exact ho.1 e.1 e.2 (OMap.mem_items.1 hmem)
      split at hk
      · cases hf : fs.find path with
        | none => rw [hf] at hk; cases hk; exact hQ
        | some x => rw [hf] at hk; cases hk; exact hs path _ hf
      · exact hs k d hk
    · cases h

theorem stageBelow_all {Q : Desc → Prop} {dir : Str} : ∀ {l : List (Str × Desc)} {r : OMap Str Desc},
    (∀ e ∈ l, Q e.2) → (∀ k d, r.find k = some d → Q d) → ∀ k d, (stageBelow dir l r).find k = some d → Q d
  | [], _, _, hr => hr
  | (path, a) :: t, r, hl, hr => by
    unfold stageBelow
    refine stageBelow_all (fun e he => hl e (List.mem_cons_of_mem _ he)) ?_
    intro k d hk
    rw [OMap.find_emplace] at hk
    split at hk
    · cases hf : r.find (toNormalPath (append dir path)) with
      | none => rw [hf] at hk; cases hk; exact hl (path, a) List.mem_cons_self
      | some x => rw [hf] at hk; cases hk; exact hr _ _ hf
    · exact hr k d hk

theorem subdir_all {Q : Desc → Prop} {p : Provided Desc} (h : Offers Q p) (dir : Str) :
    ∀ k d, (subdirStage p dir).find k = some d → Q d :=
  stageBelow_all (items_all h.2) (stageBelow_all (items_all h.1) empty_all)

theorem install_all {Q : Desc → Prop} {T : Type} {E : T → Provided Desc} {d : InstallDesc T} {m : OMap Str Desc}
    (hE : ∀ x, x ∈ d.deps ∨ x ∈ d.files.map Prod.snd ∨ x ∈ d.dirs.map Prod.fst → Offers Q (E x))
    (h : install E d = .ok m) : ∀ k a, m.find k = some a → Q a := by
  unfold install at h
  split at h
  · cases h
  rename_i s hs
  split at h
  · rename_i fs hfs
    split at h
    · cases h
    rename_i s' hs'
    split at h
    · cases h
      intro k a hk
      rcases (stageDirs_ok _ _ _ _ hs' k a).1 hk with h1 | ⟨e, he, h1⟩
      · refine over_all ?_ ?_ k a h1
        · intro k a hk
          rcases (stageDeps_ok _ _ _ _ hs k a).1 hk with h2 | ⟨t, ht, h2⟩
          · exact empty_all (Q := Q) k a h2
          · exact (hE t (Or.inl ht)).2 k a h2
        · exact stageFiles_all
            (fun e he => hE e.2 (Or.inr (Or.inl (List.mem_map_of_mem he)))) empty_all hfs
      · exact subdir_all (hE e.1 (Or.inr (Or.inr (List.mem_map_of_mem he)))) _ k a h1
    · cases h
    · cases h
  · rename_i hne
    exact absurd h (hne m)

theorem fold_all {Q : Desc → Prop} (f : Provided Desc → OMap Str Desc) : ∀ {deps : List (Provided Desc)}
    {m : OMap Str Desc}, (∀ p ∈ deps, ∀ k d, (f p).find k = some d → Q d) → (∀ k d, m.find k = some d → Q d) →
    ∀ k d, (deps.foldl (fun m d => over m (f d)) m).find k = some d → Q d
  | [], _, _, hm => hm
  | p :: t, _, hf, hm => by
    rw [List.foldl_cons]
    exact fold_all f (fun q hq => hf q (List.mem_cons_of_mem _ hq)) (over_all hm (hf p List.mem_cons_self))

theorem genericInputs_all {Q : Desc → Prop} {deps : List (Provided Desc)} (h : ∀ p ∈ deps, Offers Q p) :
    ∀ k d, (genericInputs deps).find k = some d → Q d :=
  fold_all _ (fun p hp => (h p hp).1) (fold_all _ (fun p hp => (h p hp).2) empty_all)

theorem outsMap_find {id : Str} : ∀ {l : List Str} {m : OMap Str Desc} {k : Str} {d : Desc},
    (outsMap id l m).find k = some d → m.find k = some d ∨ ∃ o ∈ l, d = .action id (toNormalPath o)
  | [], _, _, _, h => Or.inl h
  | o :: t, m, k, d, h => by
    rcases outsMap_find (l := t) h with h1 | ⟨o', ho, h1⟩
    · rw [OMap.find_emplace] at h1
      split at h1
      · cases hf : m.find o with
        | none => rw [hf] at h1; cases h1; exact Or.inr ⟨o, by simp, rfl⟩
        | some x => rename_i e; rw [hf] at h1; cases h1; subst e; exact Or.inl hf
      · exact Or.inl h1
    · exact Or.inr ⟨o', List.mem_cons_of_mem _ ho, h1⟩

/-- What is needed about the action of a `generic` target. -/
theorem genericCall_parts {H : Hashes N} {one : N} {deps : List (Provided Desc)} {c : GenericCall N} {a : Act N}
    {r : OMap Str Desc} (h : genericCall H.h H.hexFloat one deps c = some (a, r)) :
    Strict a ∧ a.inputs = (addDirFor (emptyDir H.h) a.cwd (genericInputs deps)).items ∧
    ∀ k d, r.find k = some d → ∃ p, (p ∈ a.files ∨ p ∈ a.dirs) ∧ d = .action (a.id H.h H.hexFloat) p := by
  unfold genericCall at h
  obtain ⟨outs, houts, h⟩ := Option.bind_eq_some_iff.1 h
  obtain ⟨dirs, hdirs, h⟩ := Option.bind_eq_some_iff.1 h
  split at h
  · cases h
  split at h
  · cases h
  obtain ⟨cmds, -, h⟩ := Option.bind_eq_some_iff.1 h
  obtain ⟨cwd, -, h⟩ := Option.bind_eq_some_iff.1 h
  obtain ⟨env, -, h⟩ := Option.bind_eq_some_iff.1 h
  obtain ⟨sh, -, h⟩ := Option.bind_eq_some_iff.1 h
  obtain ⟨scale, -, h⟩ := Option.bind_eq_some_iff.1 h
  obtain ⟨props, -, h⟩ := Option.bind_eq_some_iff.1 h
  split at h
  · simp only at h
    split at h
    · simp only [Option.some.injEq, Prod.mk.injEq] at h
      obtain ⟨h1, h2⟩ := h
      rw [h1] at h2
      refine ⟨by rw [← h1]; exact ⟨rfl, rfl⟩, by rw [← h1], ?_⟩
      have hnorm : ∀ o, o ∈ a.files ∨ o ∈ a.dirs → toNormalPath o = o := by
        intro o ho
        rw [← h1] at ho
        have : ∃ x, o = toNormalPath x := by
          rcases ho with ho | ho <;>
          · obtain ⟨x, -, hx⟩ := List.mem_map.1 ((mem_sortDedup _ _).1 ho)
            exact ⟨x, hx.symm⟩
        obtain ⟨x, rfl⟩ := this
        exact C39_idempotent x
      intro k d hk
      rw [← h2] at hk
      rcases outsMap_find hk with hk | ⟨o, ho, rfl⟩
      · rcases outsMap_find hk with hk | ⟨o, ho, rfl⟩
        · simp [OMap.empty, OMap.find, assoc] at hk
        · have ho : o ∈ a.files := by rw [← h1]; exact ho
          exact ⟨o, Or.inl ho, by rw [hnorm o (Or.inl ho)]⟩
      · have ho : o ∈ a.dirs := by rw [← h1]; exact ho
        exact ⟨o, Or.inr ho, by rw [hnorm o (Or.inr ho)]⟩
    · cases h
  · cases h

theorem node_arts {Q : Desc → Prop} {v n : Value N} (hv : Arts Q v) (h : NodeOf v n) : Arts Q n := by
  induction h with
  | provider hm hk hl =>
    subst hm
    unfold Arts at hv
    rw [deep_map] at hv
    have := hv _ hk
    simp only [deep_list] at this
    exact this _ hl
  | field _ hk hl ih =>
    unfold Arts at ih
    simp only [Deep] at ih
    have := deepItems_iff.1 ih.2.2 _ hk
    simp only [deep_list] at this
    exact this _ hl

/-- The common part: `P` tells which targets are considered by their taints, `ok` which actions they may use. -/
theorem checked_avail {H : Hashes N} {source : Desc → Prop} (ok : Act N → Bool) (P : List Str → List Str → Prop)
    (hP : ∀ {taint origin taint' : List Str} {origin' : List Str}, P taint origin → taint' ⊆ taint →
      (origin' = [] ∨ origin' = origin ∨ ∃ q o : List Str, q ⊆ taint ∧ (o = [] ∨ o = origin) ∧ origin' = q ++ o) →
      P taint' origin')
    (hnode : ∀ {taint origin : List Str}, P [] (taint ++ origin) → P taint origin)
    (hok : ∀ {taint origin : List Str} (a : Act N), P taint origin → (taint = [] → Strict a) → ok a = true)
    {l : List (TaintedTarget N)} (h : Checked H source l) :
    ∀ t ∈ l, P t.taint t.origin → t.val.All (Avail H (onlyActions ok (recordedFor l)) source) := by
  have named : ∀ {l ds : List (TaintedTarget N)} {taint : List Str}, NamedDeps l ds taint → P taint [] →
      (∀ t ∈ l, P t.taint t.origin → t.val.All (Avail H (onlyActions ok (recordedFor l)) source)) →
      ∀ t : TaintedTarget N, ∀ d ∈ ds, d.val.All (Avail H (onlyActions ok (recordedFor (t :: l))) source) := by
    intro l ds taint hd hp ih t d hdd
    obtain ⟨h1, h2, h3⟩ := hd d hdd
    exact all_mono (fun _ => avail_tail) (ih d h1 (hP hp h2 (Or.inl h3)))
  have offers : ∀ {l ds : List (TaintedTarget N)} {taint : List Str}, NamedDeps l ds taint → P taint [] →
      (∀ t ∈ l, P t.taint t.origin → t.val.All (Avail H (onlyActions ok (recordedFor l)) source)) →
      ∀ t : TaintedTarget N, ∀ p ∈ ds.map (fun d => provided d.val),
        Offers (Avail H (onlyActions ok (recordedFor (t :: l))) source) p := by
    intro l ds taint hd hp ih t p hpp
    obtain ⟨d, hdd, rfl⟩ := List.mem_map.1 hpp
    exact provided_offers (named hd hp ih t d hdd)
  induction h with
  | nil => intro t ht; cases ht
  | @source l t taint _ hs ih =>
    intro t ht hp
    rcases List.mem_cons.1 ht with rfl | ht
    · exact all_mono (fun d hd => .given hd) hs
    · exact all_mono (fun d hd => avail_tail hd) (ih t ht hp)
  | @rule l a p r ds origin c O n f ρ _ hh hparams hρ hf hdep hdeps hr ih =>
    intro t ht hp
    rcases List.mem_cons.1 ht with rfl | ht
    · subst hh
      simp only at hp
      let S : TaintedTarget N := ⟨⟨c.final, a, p, r⟩, c.tainted, origin⟩
      have hd : ∀ d ∈ ds, d.val.All (Avail c.hashes (onlyActions ok (recordedFor (S :: l))) source) := by
        intro d hd
        obtain ⟨h1, h2, h3⟩ := hdep d hd
        refine all_mono (fun _ => avail_tail) (ih d h1 (hP hp h2 ?_))
        rcases h3 with h3 | h3 | ⟨q, hq, hqo, h3⟩
        · exact Or.inl h3
        · exact Or.inr (Or.inl h3)
        · exact Or.inr (Or.inr ⟨q.taint, q.origin, (hdep q hq).2.1, hqo, h3⟩)
      have hfalse : ∀ v : Value N, Arts (fun _ => False) v →
          Arts (Avail c.hashes (onlyActions ok (recordedFor (S :: l))) source) v :=
        deep_mono fun _ hv d hd => (hv d hd).elim
      have := ruleResult_deep
        (L := fun v => ∀ d, v = .art d → Avail c.hashes (onlyActions ok (recordedFor (S :: l))) source d) (c := c)
        ⟨fun e he => hfalse _ (hparams e he), fun e tr a p r hx => by
          obtain ⟨d, hdd, rfl, rfl, rfl⟩ := hdeps e tr a p r hx
          exact hd d hdd⟩
        { blob := fun s hs d hd => by cases hd; exact Avail.blob (head_blob hs)
          link := fun s hs d hd => by cases hd; exact Avail.link (head_blob hs)
          action := fun x hx hst hi q hq d hd => by
            cases hd
            exact Avail.action (head_action hx (hok x hp hst)) (fun e he => hi e he _ rfl) hq
          tree := fun t ht he d hd => by cases hd; exact Avail.tree (head_tree ht) (fun e h => he e h _ rfl)
          overlay := fun l b hl he d hd => by
            cases hd; exact Avail.overlay (head_overlay hl) (fun x h => he x h _ rfl)
          result := fun _ _ _ _ _ d hd => by cases hd
          valueNode := fun _ _ _ d hd => by cases hd
          absNode := fun t s u v hv d hd => by
            obtain ⟨x, rfl⟩ := absNodeValue_some hv
            cases hd } hf (fun x => hfalse _ (hρ x)) hr
      simp only [Deep] at this
      exact this.2
    · exact all_mono (fun d hd => avail_tail hd) (ih t ht hp)
  | @valueNode l a p r d _ hd hn ih =>
    intro t ht hp
    rcases List.mem_cons.1 ht with rfl | ht
    · have h1 := ih d hd (hnode hp)
      have h2 := node_arts h1.2.1 hn
      unfold Arts at h2
      simp only [Deep] at h2
      exact all_mono (t := ⟨{}, a, p, r⟩) (fun _ => avail_tail) ⟨h2.2.2.1, h2.2.2.2.1, h2.2.2.2.2⟩
    · exact all_mono (fun d hd => avail_tail hd) (ih t ht hp)
  | @fileGen l name data taint _ ih =>
    intro t ht hp
    rcases List.mem_cons.1 ht with rfl | ht
    · refine staged_all ?_
      intro e he
      simp only [List.mem_singleton] at he
      subst he
      exact .blob (head_blob (by simp [Rule.fileGen, staged]))
    · exact all_mono (fun d hd => avail_tail hd) (ih t ht hp)
  | @linkGen l t' name data taint _ hl ih =>
    intro t ht hp
    rcases List.mem_cons.1 ht with rfl | ht
    · unfold Rule.linkGen at hl
      split at hl
      · cases hl
        refine staged_all ?_
        intro e he
        simp only [List.mem_singleton] at he
        subst he
        exact .link (head_blob (by simp [staged]))
      · cases hl
    · exact all_mono (fun d hd => avail_tail hd) (ih t ht hp)
  | @tree l t' ds name taint _ hd ht' ih =>
    intro t ht hp
    rcases List.mem_cons.1 ht with rfl | ht
    · have ho := offers hd hp ih ⟨t', taint, []⟩
      obtain ⟨s, hs, ht'⟩ := Option.bind_eq_some_iff.1 ht'
      have hall := mergeDeps_all ho empty_all hs
      split at ht'
      · rename_i m hm
        cases ht'
        refine staged_all ?_
        intro e he
        simp only [List.mem_singleton] at he
        subst he
        refine .tree (head_tree (by simp [staged])) ?_
        unfold exprToTree at hm
        split at hm
        · cases hm
          exact content_all (items_all hall)
        · cases hm
        · cases hm
      · cases ht'
    · exact all_mono (fun d hd => avail_tail hd) (ih t ht hp)
  | @overlay l ds name disjoint taint _ hd ih =>
    intro t ht hp
    rcases List.mem_cons.1 ht with rfl | ht
    · have ho := offers hd hp ih ⟨overlayTarget H name disjoint (ds.map fun d => provided d.val), taint, []⟩
      refine staged_all ?_
      intro e he
      simp only [List.mem_singleton] at he
      subst he
      refine .overlay (head_overlay (by simp [overlayTarget, staged])) ?_
      intro x hx
      obtain ⟨p, hpp, rfl⟩ := List.mem_map.1 hx
      refine .tree (head_tree ?_) (content_all (items_all (ho p hpp).1))
      simp only [overlayTarget, staged]
      exact List.mem_map_of_mem hpp
    · exact all_mono (fun d hd => avail_tail hd) (ih t ht hp)
  | @install l t' ds d taint _ hd hx ht' ih =>
    intro t ht hp
    rcases List.mem_cons.1 ht with rfl | ht
    · have hn := named hd hp ih ⟨t', taint, []⟩
      unfold installTarget at ht'
      split at ht'
      · rename_i m hm
        cases ht'
        refine staged_all (items_all (install_all (fun x hxx => ?_) hm))
        obtain ⟨y, hy, rfl⟩ := List.mem_map.1 (hx x hxx)
        exact provided_offers (hn y hy)
      · cases ht'
    · exact all_mono (fun d hd => avail_tail hd) (ih t ht hp)
  | @generic l t' ds one c taint _ hd ht' ih =>
    intro t ht hp
    rcases List.mem_cons.1 ht with rfl | ht
    · have ho := offers hd hp ih ⟨t', taint, []⟩
      obtain ⟨⟨a, r⟩, hc, rfl⟩ := Option.map_eq_some_iff.1 ht'
      obtain ⟨h1, h2, h3⟩ := genericCall_parts hc
      refine ⟨arts_map.2 (items_all ?_), arts_empty, arts_empty⟩
      intro k x hx
      obtain ⟨p, hpp, rfl⟩ := h3 k x hx
      refine .action (head_action (by simp) (hok a hp fun _ => h1)) ?_ hpp
      rw [h2]
      refine items_all ?_
      intro k' x' hx'
      have hin := genericInputs_all ho
      unfold addDirFor at hx'
      split at hx'
      · exact hin _ _ hx'
      · rename_i hc1
        split at hx'
        · rename_i hc2
          rw [OMap.find_assign] at hx'
          split at hx'
          · cases hx'
            refine .tree (head_tree ?_) (by simp)
            simp [cwdTrees, hc1, hc2]
          · exact hin _ _ hx'
        · exact hin _ _ hx'
    · exact all_mono (fun d hd => avail_tail hd) (ih t ht hp)
  | @dir l ds name _ hd ih =>
    intro t ht hp
    rcases List.mem_cons.1 ht with rfl | ht
    · have ho := offers hd hp ih ⟨dirTarget H name (ds.map fun d => provided d.val), [], []⟩
      refine staged_all ?_
      intro e he
      simp only [List.mem_singleton] at he
      subst he
      refine .tree (head_tree (by simp [dirTarget, staged])) (content_all ?_)
      intro e he
      obtain ⟨p, hpp, hh⟩ := List.mem_filterMap.1 he
      exact items_all (ho p hpp).2 e (List.mem_of_mem_head? hh)
    · exact all_mono (fun d hd => avail_tail hd) (ih t ht hp)
  | @glob l ds _ hd ih =>
    intro t ht hp
    rcases List.mem_cons.1 ht with rfl | ht
    · have ho := offers hd hp ih ⟨globTarget (ds.map fun d => provided d.val), [], []⟩
      exact staged_all (items_all (fold_all _ (fun p hp => (ho p hp).1) empty_all))
    · exact all_mono (fun d hd => avail_tail hd) (ih t ht hp)
  | @configure l d taint _ hd ih =>
    intro t ht hp
    rcases List.mem_cons.1 ht with rfl | ht
    · exact named hd hp ih _ d (by simp)
    · exact all_mono (fun d hd => avail_tail hd) (ih t ht hp)
  | @exported l d _ hd ih =>
    intro t ht hp
    rcases List.mem_cons.1 ht with rfl | ht
    · exact named hd hp ih _ d (by simp)
    · exact all_mono (fun d hd => avail_tail hd) (ih t ht hp)

/-! ## C73 -/

/-- C73: every artifact of every target can be obtained with what was recorded, from source files and results found
in a cache; for all kinds of targets. -/
theorem C73_available (H : Hashes N) (source : Desc → Prop) (l : List (TaintedTarget N)) (h : Checked H source l) :
    ∀ t ∈ l, t.val.All (Avail H (recordedFor l) source) := by
  intro t ht
  have := checked_avail (fun _ => true) (fun _ _ => True) (fun _ _ _ => trivial) (fun _ => trivial)
    (fun _ _ _ => rfl) h t ht trivial
  refine all_mono (fun d hd => avail_mono ?_ ?_ ?_ ?_ (fun d hd => .given hd) hd) this
  · intro a ha; exact (List.mem_filter.1 ha).1
  · exact fun _ hb => hb
  · exact fun _ hb => hb
  · exact fun _ hb => hb

/-- C73: every artifact of a named target without taints can be obtained without the actions that may fail or must not
be cached.  This includes all artifacts inside of the values provided. -/
theorem C73_untainted (H : Hashes N) (source : Desc → Prop) (l : List (TaintedTarget N)) (h : Checked H source l)
    (t : TaintedTarget N) (ht : t ∈ l) (hn : t.origin = []) (hu : t.taint = []) :
    t.val.All (Avail H (strictly (recordedFor l)) source) := by
  refine checked_avail (fun a => decide (Strict a)) (fun taint origin => taint = [] ∧ origin = []) ?_ ?_ ?_ h t ht
    ⟨hu, hn⟩
  · rintro taint origin taint' origin' ⟨rfl, rfl⟩ h1 h2
    refine ⟨List.eq_nil_of_subset_nil h1, ?_⟩
    rcases h2 with h2 | h2 | ⟨q, o, h3, h4, rfl⟩
    · exact h2
    · exact h2
    · have := List.eq_nil_of_subset_nil h3
      simp_all
  · rintro taint origin ⟨-, h1⟩
    exact List.append_eq_nil_iff.1 h1
  · rintro taint origin a ⟨h1, -⟩ h2
    exact decide_eq_true (h2 h1)

/-- What produces artifacts: actions, trees and overlays. -/
inductive Job (N : Type) where
  | action (a : Act N)
  | tree (t : List (Str × Desc))
  | overlay (l : List Desc) (disjoint : Bool)
  deriving DecidableEq

/-- The job is recorded. -/
def Job.In (R : Rec N) : Job N → Prop
  | .action a => a ∈ R.actions
  | .tree t => t ∈ R.trees
  | .overlay l b => (l, b) ∈ R.overlays

/-- The artifact is produced by the job. -/
def Job.Yields (H : Hashes N) : Job N → Desc → Prop
  | .action a, d => ∃ p, (p ∈ a.files ∨ p ∈ a.dirs) ∧ d = .action (a.id H.h H.hexFloat) p
  | .tree t, d => d = .tree (treeId H.h t)
  | .overlay l b, d => d = .overlay (overlayId H.h l b)

/-- What the job needs. -/
def Job.needs : Job N → List Desc
  | .action a => a.inputs.map Prod.snd
  | .tree t => t.map Prod.snd
  | .overlay l _ => l

/-- What the job produces. -/
def Job.outs (H : Hashes N) : Job N → List Desc
  | .action a => (a.files ++ a.dirs).map fun p => .action (a.id H.h H.hexFloat) p
  | .tree t => [.tree (treeId H.h t)]
  | .overlay l b => [.overlay (overlayId H.h l b)]

/-- The job as given to the graph (graph_traverser.cpp:224-260, tree.hpp, tree_overlay.hpp, dag.cpp:70-91).  Artifacts
have the same identifier if they only differ in the repository they were found in. -/
def Job.described (H : Hashes N) (j : Job N) : Dag.Desc Desc (Job N) where
  id := j
  outs := j.outs H
  ins := j.needs.map Desc.forget
  runs := match j with
    | .action a => !a.command.isEmpty
    | _ => true

/-- An artifact is built by a recorded job yielding it, and a job depends on what it needs. -/
structure GraphOf (H : Hashes N) (R : Rec N) (g : Dag.Graph Desc (Job N)) : Prop where
  builder : ∀ d j, g.builder d = some j → j.In R ∧ j.Yields H d
  deps : ∀ j d, d ∈ g.deps j → ∃ e ∈ j.needs, d.forget = e.forget

/-- Identifiers identify what was recorded (up to the repository known artifacts were found in), see
`faithful_of_noCollision`. -/
structure Faithful (H : Hashes N) (R : Rec N) : Prop where
  action : ∀ a ∈ R.actions, ∀ b ∈ R.actions, a.id H.h H.hexFloat = b.id H.h H.hexFloat → a.forget = b.forget
  tree : ∀ a ∈ R.trees, ∀ b ∈ R.trees, treeId H.h a = treeId H.h b → forgetInputs a = forgetInputs b
  overlay : ∀ a ∈ R.overlays, ∀ b ∈ R.overlays, overlayId H.h a.1 a.2 = overlayId H.h b.1 b.2 →
    a.1.map Desc.forget = b.1.map Desc.forget

/-- By C47, it is enough that the hash function has no collisions among what was hashed. -/
theorem faithful_of_noCollision (H : Hashes N) (ho : H.h.OK) (hf : HexFloat H.hexFloat) (t : HashType) (R : Rec N)
    (hv : ∀ j : Job N, j.In R → ∀ d ∈ j.needs, d.Valid t)
    (hn : ∀ l : List Str, (∀ s ∈ l, (∃ a ∈ R.actions, s ∈ hashedAct H.h H.hexFloat a.forget) ∨
      (∃ x ∈ R.trees, s = treeText H.h x) ∨ ∃ o ∈ R.overlays, s = overlayText H.h o.1 o.2) → NoCollision H.h.H l) :
    Faithful H R where
  action a ha b hb e := by
    refine C47_action H.h ho hf t a b (fun kd hk => hv (.action a) ha _ (List.mem_map_of_mem hk))
      (fun kd hk => hv (.action b) hb _ (List.mem_map_of_mem hk)) (hn _ ?_) e
    intro s hs
    rcases List.mem_append.1 hs with hs | hs
    · exact Or.inl ⟨a, ha, hs⟩
    · exact Or.inl ⟨b, hb, hs⟩
  tree a ha b hb e := by
    refine C47_tree H.h ho t a b (fun kd hk => hv (.tree a) ha _ (List.mem_map_of_mem hk))
      (fun kd hk => hv (.tree b) hb _ (List.mem_map_of_mem hk)) (hn _ ?_) e
    intro s hs
    simp only [List.mem_cons, List.not_mem_nil, or_false] at hs
    rcases hs with rfl | rfl
    · exact Or.inr (Or.inl ⟨a, ha, rfl⟩)
    · exact Or.inr (Or.inl ⟨b, hb, rfl⟩)
  overlay a ha b hb e := by
    refine (C47_overlay H.h ho t a.1 b.1 a.2 b.2 (fun d hd => hv (.overlay a.1 a.2) ha _ hd)
      (fun d hd => hv (.overlay b.1 b.2) hb _ hd) (hn _ ?_) e).1
    intro s hs
    simp only [List.mem_cons, List.not_mem_nil, or_false] at hs
    rcases hs with rfl | rfl
    · exact Or.inr (Or.inr ⟨a, ha, rfl⟩)
    · exact Or.inr (Or.inr ⟨b, hb, rfl⟩)

theorem forget_forget (d : Desc) : d.forget.forget = d.forget := by
  cases d <;> rfl

theorem graphOf_added {H : Hashes N} {R : Rec N} {js : List (Job N)} (hj : ∀ j ∈ js, j.In R)
    {g : Dag.Graph Desc (Job N)} (hg : Dag.Graph.empty.add (js.map (Job.described H)) = some g) : GraphOf H R g := by
  have hS := Dag.C22_graph_described hg
  refine ⟨fun d j hb => ?_, fun j d hd => ?_⟩
  · obtain ⟨x, hx, rfl, ho⟩ := (hS.builder d j).1 hb
    obtain ⟨j, hjj, rfl⟩ := List.mem_map.1 hx
    refine ⟨hj j hjj, ?_⟩
    cases j with
    | action a =>
      obtain ⟨p, hp, hd⟩ := List.mem_map.1 ho
      exact ⟨p, List.mem_append.1 hp, hd.symm⟩
    | tree t => exact List.mem_singleton.1 ho
    | overlay l b => exact List.mem_singleton.1 ho
  · rw [hS.deps] at hd
    obtain ⟨x, hx, hi⟩ := List.mem_flatMap.1 hd
    obtain ⟨hx, he⟩ := List.mem_filter.1 hx
    obtain ⟨j', hjj, rfl⟩ := List.mem_map.1 hx
    have : j' = j := of_decide_eq_true he
    subst this
    obtain ⟨e, he, rfl⟩ := List.mem_map.1 hi
    exact ⟨e, he, forget_forget e⟩

/-- A source file, or an artifact with known content. -/
def Leaf : Desc → Prop
  | .loc _ _ => True
  | .known _ _ _ => True
  | _ => False

theorem leaf_forget {d d' : Desc} (h : d'.forget = d.forget) (hd : Leaf d) : Leaf d' := by
  cases d <;> cases d' <;> simp_all [Leaf, Desc.forget]

theorem leaf_builder {H : Hashes N} {R : Rec N} {g : Dag.Graph Desc (Job N)} (hg : GraphOf H R g) {d : Desc}
    (hd : Leaf d) : g.builder d = none := by
  cases hb : g.builder d with
  | none => rfl
  | some j =>
    have := (hg.builder d j hb).2
    cases j with
    | action a => obtain ⟨p, -, rfl⟩ := this; exact hd.elim
    | tree t => cases this; exact hd.elim
    | overlay l b => cases this; exact hd.elim

theorem forget_mem {l l' : List Desc} (h : l.map Desc.forget = l'.map Desc.forget) {d' : Desc} (hd : d' ∈ l') :
    ∃ d ∈ l, d'.forget = d.forget := by
  have : d'.forget ∈ l.map Desc.forget := by rw [h]; exact List.mem_map_of_mem hd
  obtain ⟨d, h1, h2⟩ := List.mem_map.1 this
  exact ⟨d, h1, h2.symm⟩

theorem forgetInputs_map {l l' : List (Str × Desc)} (h : forgetInputs l = forgetInputs l') :
    (l.map Prod.snd).map Desc.forget = (l'.map Prod.snd).map Desc.forget := by
  have := congrArg (List.map Prod.snd) h
  simpa [forgetInputs, List.map_map, Function.comp_def] using this

/-- Nothing that may fail or must not be cached is needed for what can be obtained without. -/
theorem cone_strict {H : Hashes N} {R : Rec N} {source : Desc → Prop} (hs : ∀ d, source d → Leaf d)
    (hF : Faithful H R) {g : Dag.Graph Desc (Job N)} (hg : GraphOf H R g) {d : Desc}
    (h : Avail H (strictly R) source d) :
    ∀ d', d'.forget = d.forget → ∀ a, Dag.Cone g [d'] (.act (.action a)) → Strict a := by
  have leaf : ∀ {d : Desc}, Leaf d → ∀ d', d'.forget = d.forget → ∀ a, Dag.Cone g [d'] (.act (.action a)) →
      Strict a := by
    intro d hd d' he a hc
    rcases Dag.cone_unfold hc with h1 | ⟨c, h1, -⟩
    · cases h1
    · rw [leaf_builder hg (leaf_forget he hd)] at h1; cases h1
  induction h with
  | given h => exact leaf (hs _ h)
  | blob _ => exact leaf (by simp [Leaf])
  | link _ => exact leaf (by simp [Leaf])
  | @action x p hx _ hp ih =>
    intro d' he a hc
    have hd' : d' = .action (x.id H.h H.hexFloat) p := by
      cases d' <;> simp_all [Desc.forget]
    subst hd'
    obtain ⟨hx, hst⟩ := List.mem_filter.1 hx
    rcases Dag.cone_unfold hc with h1 | ⟨c, h1, h2⟩
    · cases h1
    obtain ⟨h3, h4⟩ := hg.builder _ _ h1
    cases c with
    | tree t => cases h4
    | overlay l b => cases h4
    | action b =>
      obtain ⟨q, -, h4⟩ := h4
      injection h4 with h4 _
      have hforget := hF.action _ hx _ h3 h4
      rcases h2 with h2 | ⟨e, he, h2⟩
      · have : a = b := by simpa using h2
        subst this
        have hst := of_decide_eq_true hst
        have e1 : x.mayFail = a.mayFail := by
          have := congrArg (fun y : Act N => y.mayFail) hforget
          exact this
        have e2 : x.noCache = a.noCache := by
          have := congrArg (fun y : Act N => y.noCache) hforget
          exact this
        exact ⟨e1 ▸ hst.1, e2 ▸ hst.2⟩
      · have hin : forgetInputs x.inputs = forgetInputs b.inputs := congrArg (fun y : Act N => y.inputs) hforget
        have hin := forgetInputs_map hin
        obtain ⟨e', he', hee⟩ := hg.deps _ _ he
        obtain ⟨y, hy, hye⟩ := forget_mem hin he'
        obtain ⟨kd, hkd, rfl⟩ := List.mem_map.1 hy
        exact ih kd hkd e (hee.trans hye) a h2
  | @tree t ht _ ih =>
    intro d' he a hc
    have hd' : d' = .tree (treeId H.h t) := by
      cases d' <;> simp_all [Desc.forget]
    subst hd'
    rcases Dag.cone_unfold hc with h1 | ⟨c, h1, h2⟩
    · cases h1
    obtain ⟨h3, h4⟩ := hg.builder _ _ h1
    cases c with
    | action b => obtain ⟨q, -, h4⟩ := h4; cases h4
    | overlay l b => cases h4
    | tree u =>
      injection h4 with h4
      rcases h2 with h2 | ⟨e, he, h2⟩
      · cases h2
      · obtain ⟨e', he', hee⟩ := hg.deps _ _ he
        obtain ⟨y, hy, hye⟩ := forget_mem (forgetInputs_map (hF.tree _ ht _ h3 h4)) he'
        obtain ⟨kd, hkd, rfl⟩ := List.mem_map.1 hy
        exact ih kd hkd e (hee.trans hye) a h2
  | @overlay l b hl _ ih =>
    intro d' he a hc
    have hd' : d' = .overlay (overlayId H.h l b) := by
      cases d' <;> simp_all [Desc.forget]
    subst hd'
    rcases Dag.cone_unfold hc with h1 | ⟨c, h1, h2⟩
    · cases h1
    obtain ⟨h3, h4⟩ := hg.builder _ _ h1
    cases c with
    | action b => obtain ⟨q, -, h4⟩ := h4; cases h4
    | tree u => cases h4
    | overlay u b' =>
      injection h4 with h4
      rcases h2 with h2 | ⟨e, he, h2⟩
      · cases h2
      · obtain ⟨e', he', hee⟩ := hg.deps _ _ he
        obtain ⟨y, hy, hye⟩ := forget_mem (hF.overlay _ hl _ h3 h4) he'
        exact ih y hy e (hee.trans hye) a h2

/-- C73: no action that may fail or must not be cached is needed to build an artifact of a named target without
taints, in the graph made of any of the recorded actions, trees and overlays. -/
theorem C73_cone (H : Hashes N) (source : Desc → Prop) (hs : ∀ d, source d → Leaf d) (l : List (TaintedTarget N))
    (h : Checked H source l) (hF : Faithful H (recordedFor l)) (js : List (Job N))
    (hj : ∀ j ∈ js, j.In (recordedFor l)) (g : Dag.Graph Desc (Job N))
    (hg : Dag.Graph.empty.add (js.map (Job.described H)) = some g) (t : TaintedTarget N) (ht : t ∈ l) (hn : t.origin = []) (hu : t.taint = []) :
    t.val.All fun d => ∀ a, Dag.Cone g [d] (.act (.action a)) → a.mayFail = none ∧ a.noCache = false :=
  all_mono (fun d hd => cone_strict hs hF (graphOf_added hj hg) hd d rfl) (C73_untainted H source l h t ht hn hu)

/-- Whether the job may fail. -/
def Job.mayFail : Job N → Bool
  | .action a => a.mayFail.isSome
  | _ => false

/-- C73: at no time of a traversal an artifact of a named target without taints is marked as failed, whatever the
actions do; so, no artifact of an export target is, the results of which are stored for later builds. -/
theorem C73_unmarked (H : Hashes N) (source : Desc → Prop) (hs : ∀ d, source d → Leaf d) (l : List (TaintedTarget N))
    (h : Checked H source l) (hF : Faithful H (recordedFor l)) (js : List (Job N))
    (hj : ∀ j ∈ js, j.In (recordedFor l)) (g : Dag.Graph Desc (Job N))
    (hg : Dag.Graph.empty.add (js.map (Job.described H)) = some g) (t : TaintedTarget N) (ht : t ∈ l) (hn : t.origin = []) (hu : t.taint = [])
    (response : Job N → Dag.Response) (ts : List Desc) (s : Dag.State Desc (Job N)) (hr : Dag.Reachable g ts s)
    (hA : Dag.Agrees g ⟨Job.mayFail, response⟩ s.core.log) :
    t.val.All fun d => .available d ∈ s.core.log → Dag.marks g ⟨Job.mayFail, response⟩ s.core.log d = false := by
  refine all_mono (fun d hd ha => ?_) (C73_cone H source hs l h hF js hj g hg t ht hn hu)
  rw [← Bool.not_eq_true, Dag.C54_marked_iff (Dag.C22_graph_ok hg) hr hA ha]
  rintro ⟨c, hc, hm, -⟩
  cases c with
  | action a => simp [Job.mayFail, (hd a hc).1] at hm
  | tree t => cases hm
  | overlay l b => cases hm

/-! ### Examples -/

/-- For examples: a rule with an action that may fail, the output of which is provided as value node. -/
def exampleTestRule : Fn Unit Desc := .mk [] [] (exampleFn "RESULT" [
  ("provides", exampleFn "singleton_map" [("key", .str "nodes".toList), ("value", .list [exampleFn "VALUE_NODE" [("$1",
    exampleFn "RESULT" [("artifacts", exampleFn "ACTION" [("cmd", .list [.str "test".toList]),
      ("outs", .list [.str "log".toList]), ("inputs", exampleDep), ("may_fail", .list [.str "test".toList])])])]])])])

/-- For examples: the action recorded. -/
def exampleTest : Act Unit where
  files := ["log".toList]
  dirs := []
  command := ["test".toList]
  cwd := []
  env := []
  mayFail := some "action failed".toList
  noCache := false
  timeout := ()
  props := []
  inputs := [("x.c".toList, exampleSource)]

/-- For examples: what the rule is given; it is tainted. -/
def exampleTestCtx : Ctx Unit where
  hashes := exampleHashes
  one := ()
  tainted := ["test".toList]
  params := [("src".toList, .name exampleName)]
  deps := fun e _ => if e = exampleName then some (exampleStage, .map [], .map []) else none
  final := { actions := [exampleTest] }

/-- For examples: the artifacts of the node. -/
def exampleLog : Value Unit := artMap [("log".toList, .action (exampleTest.id demo demoFloat) "log".toList)]

/-- For examples: what the test provides. -/
def exampleNodes : Value Unit :=
  .map [("nodes".toList, .list [.valueNode (.result exampleLog (.map []) (.map []))])]

theorem exampleTest_result : ruleResult exampleTestCtx exampleOps 10 exampleTestRule (fun _ => .none) =
    some (.map [], exampleNodes, .map []) := by
  rfl

theorem exampleTestRule_written : Written exampleTestRule := by
  simp [Written, exampleTestRule, exampleFn, exampleDep, BuiltFn, BuiltFns, Built, BuiltItems, BuiltList]

/-- For examples: the source file. -/
def exampleS : TaintedTarget Unit := ⟨⟨{}, exampleStage, .map [], .map []⟩, [], []⟩

/-- For examples: the target compiled. -/
def exampleC : TaintedTarget Unit :=
  ⟨⟨exampleCtx.final, exampleArtifacts, exampleProvides, exampleRunfiles⟩, [], []⟩

/-- For examples: the test. -/
def exampleT : TaintedTarget Unit :=
  ⟨⟨exampleTestCtx.final, .map [], exampleNodes, .map []⟩, ["test".toList], []⟩

/-- For examples: the anonymous target for the node of the test. -/
def exampleA : TaintedTarget Unit := ⟨⟨{}, exampleLog, .map [], .map []⟩, [], ["test".toList]⟩

/-- For examples: an overlay of the target compiled. -/
def exampleO : TaintedTarget Unit :=
  ⟨overlayTarget exampleHashes "dir".toList false [provided exampleC.val], [], []⟩

/-- For examples: the exported overlay. -/
def exampleE : TaintedTarget Unit := ⟨{ exampleO.val with recorded := {} }, [], []⟩

/-- For examples: the targets analysed. -/
def exampleChecked : List (TaintedTarget Unit) := [exampleE, exampleO, exampleA, exampleT, exampleC, exampleS]

theorem example_checked : Checked exampleHashes exampleGiven exampleChecked := by
  have hS : Checked exampleHashes exampleGiven [exampleS] := by
    refine .source [] .nil ⟨?_, arts_empty, arts_empty⟩
    unfold exampleStage
    rw [arts_map]
    intro e he
    simp only [List.mem_singleton] at he
    subst he
    rfl
  have hC : Checked exampleHashes exampleGiven [exampleC, exampleS] := by
    refine .rule [exampleS] [] exampleCtx exampleOps 10 exampleRule (fun _ => .none) hS rfl ?_ ?_ exampleRule_written
      ?_ ?_ example_result
    · intro e he
      simp only [exampleCtx, List.mem_singleton] at he
      subst he
      simp [Arts, Deep]
    · intro x; simp [Arts, Deep]
    · intro d hd
      simp only [List.mem_singleton] at hd
      subst hd
      exact ⟨by simp, by simp [exampleS], Or.inl rfl⟩
    · intro e tr a p r hd
      simp only [exampleCtx] at hd
      split at hd
      · cases hd; exact ⟨exampleS, by simp, rfl, rfl, rfl⟩
      · cases hd
  have hT : Checked exampleHashes exampleGiven [exampleT, exampleC, exampleS] := by
    refine .rule [exampleS] [] exampleTestCtx exampleOps 10 exampleTestRule (fun _ => .none) hC rfl ?_ ?_
      exampleTestRule_written ?_ ?_ exampleTest_result
    · intro e he
      simp only [exampleTestCtx, List.mem_singleton] at he
      subst he
      simp [Arts, Deep]
    · intro x; simp [Arts, Deep]
    · intro d hd
      simp only [List.mem_singleton] at hd
      subst hd
      exact ⟨by simp, by simp [exampleS], Or.inl rfl⟩
    · intro e tr a p r hd
      simp only [exampleTestCtx] at hd
      split at hd
      · cases hd; exact ⟨exampleS, by simp, rfl, rfl, rfl⟩
      · cases hd
  have hA : Checked exampleHashes exampleGiven [exampleA, exampleT, exampleC, exampleS] :=
    .valueNode exampleT hT (by simp) (.provider rfl List.mem_cons_self List.mem_cons_self)
  have hO : Checked exampleHashes exampleGiven [exampleO, exampleA, exampleT, exampleC, exampleS] := by
    refine .overlay [exampleC] "dir".toList false [] hA ?_
    intro d hd
    simp only [List.mem_singleton] at hd
    subst hd
    exact ⟨by simp, by simp [exampleC], rfl⟩
  refine .exported exampleO hO ?_
  intro d hd
  simp only [List.mem_singleton] at hd
  subst hd
  exact ⟨by simp, by simp [exampleO], rfl⟩

-- The exported target can be built without the test.
example : exampleE.val.All (Avail exampleHashes (strictly (recordedFor exampleChecked)) exampleGiven) :=
  C73_untainted _ _ _ example_checked exampleE (by simp [exampleChecked]) rfl rfl

/-- An anonymous target has no taints, even if its node comes from a tainted target and contains the output of an
action that may fail: the restriction to named targets is necessary. -/
theorem C73_anonymous : ∃ t ∈ exampleChecked, t.taint = [] ∧
    ¬ t.val.All (Avail exampleHashes (strictly (recordedFor exampleChecked)) exampleGiven) := by
  refine ⟨exampleA, by simp [exampleChecked], rfl, ?_⟩
  rintro ⟨h, -⟩
  have h := arts_map.1 h _ (List.mem_singleton.2 rfl)
  simp only at h
  generalize hd : Desc.action (exampleTest.id demo demoFloat) "log".toList = d at h
  cases h with
  | given h => cases h; cases hd
  | @action a p h _ hp =>
    injection hd with _ hd
    subst hd
    obtain ⟨h, hst⟩ := List.mem_filter.1 h
    have : a = exampleAction ∨ a = exampleTest := by
      simp [recordedFor, recordedAll, exampleChecked, exampleE, exampleO, exampleA, exampleT, exampleC, exampleS,
        exampleCtx, exampleTestCtx, overlayTarget, staged] at h
      exact h.symm
    rcases this with rfl | rfl
    · exact absurd hp (by decide)
    · exact absurd hst (by decide)
  | _ => cases hd

theorem example_faithful : Faithful exampleHashes (recordedFor exampleChecked) where
  action := by decide +kernel
  tree := by decide +kernel
  overlay := by decide +kernel

/-- For examples: the jobs needed. -/
def exampleJobs : List (Job Unit) :=
  [.action exampleAction, .tree [], .tree (depTree (provided exampleC.val)),
    .overlay [.tree (treeId demo (depTree (provided exampleC.val)))] false]

theorem exampleJobs_in : ∀ j ∈ exampleJobs, j.In (recordedFor exampleChecked) := by
  intro j hj
  simp only [exampleJobs, List.mem_cons, List.not_mem_nil, or_false] at hj
  rcases hj with rfl | rfl | rfl | rfl <;> simp only [Job.In] <;> decide +kernel

/-- For examples: the graph. -/
def exampleGraph : Dag.Graph Desc (Job Unit) :=
  (Dag.Graph.empty.add (exampleJobs.map (Job.described exampleHashes))).getD Dag.Graph.empty

theorem exampleGraph_added :
    Dag.Graph.empty.add (exampleJobs.map (Job.described exampleHashes)) = some exampleGraph := by
  have h : (Dag.Graph.empty.add (exampleJobs.map (Job.described exampleHashes))).isSome = true := by decide +kernel
  obtain ⟨g, hg⟩ := Option.isSome_iff_exists.1 h
  unfold exampleGraph
  rw [hg]; rfl

example : exampleE.val.All fun d => ∀ a, Dag.Cone exampleGraph [d] (.act (.action a)) →
    a.mayFail = none ∧ a.noCache = false :=
  C73_cone _ _ (fun d hd => by cases hd; trivial) _ example_checked example_faithful _ exampleJobs_in _
    exampleGraph_added exampleE (by simp [exampleChecked]) rfl rfl

/-- For examples: agreement is decidable. -/
def decideAgrees (g : Dag.Graph Desc (Job Unit)) (A : Dag.Actions (Job Unit)) :
    ∀ l : List (Dag.Event Desc (Job Unit)), Decidable (Dag.Agrees g A l)
  | [] => isTrue trivial
  | .finished (.act _) _ :: l => @instDecidableAnd _ _ _ (decideAgrees g A l)
  | .finished (.art _) _ :: l => decideAgrees g A l
  | .started _ :: l => decideAgrees g A l
  | .available _ :: l => decideAgrees g A l

/-- For examples: the exported artifact. -/
def exampleDir : Desc := .overlay (overlayId demo [.tree (treeId demo (depTree (provided exampleC.val)))] false)

/-- For examples: a traversal; all actions succeed. -/
@[irreducible] def exampleRun : Dag.State Desc (Job Unit) :=
  Dag.Example.run exampleGraph (fun _ => false) [exampleDir] 120

/-- For examples: what the jobs give. -/
def exampleResponse : Job Unit → Dag.Response
  | .action _ => .result 0 true
  | _ => .tree

example : Dag.marks exampleGraph ⟨Job.mayFail, exampleResponse⟩ exampleRun.core.log exampleDir = false := by
  have hr : Dag.Reachable exampleGraph [exampleDir] exampleRun := by
    unfold exampleRun
    exact Dag.Example.run_reach exampleGraph (fun _ => false) [exampleDir] 120
  have hA : Dag.Agrees exampleGraph ⟨Job.mayFail, exampleResponse⟩ exampleRun.core.log := by
    have : @decide _ (decideAgrees exampleGraph ⟨Job.mayFail, exampleResponse⟩ exampleRun.core.log) = true := by
      unfold exampleRun
      decide +kernel
    exact @of_decide_eq_true _ (decideAgrees _ _ _) this
  have h := (C73_unmarked _ _ (fun d hd => by cases hd; trivial) _ example_checked example_faithful _ exampleJobs_in _
    exampleGraph_added exampleE (by simp [exampleChecked]) rfl rfl exampleResponse _ _ hr hA).1
  refine arts_map.1 h ("dir".toList, exampleDir) (List.mem_singleton.2 rfl) ?_
  unfold exampleRun
  decide +kernel

end Verif.Analyse.Rule
