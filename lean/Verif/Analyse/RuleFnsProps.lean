import Verif.Analyse.RuleFns
import Verif.Action.BuiltinProps
import Verif.Expr.Built

/-!
# C72: everything the result of a rule refers to can be obtained

-/

set_option linter.unusedSectionVars false

namespace Verif.Analyse.Rule

open Verif.Action Verif.Art Verif.Dig Verif.Expr Verif.Path Verif.Stage
open Verif.Names (Entity)

variable {N : Type}

/-! ## Statements -/

mutual
/-- All names, artifacts, results and nodes occurring in the value, at any depth, have the property. -/
def Deep (L : Value N → Prop) : Value N → Prop
  | .name e => L (.name e)
  | .art d => L (.art d)
  | .result s p r => L (.result s p r) ∧ Deep L s ∧ Deep L p ∧ Deep L r
  | .valueNode v => L (.valueNode v) ∧ Deep L v
  | .absNode t s u => L (.absNode t s u) ∧ Deep L s ∧ Deep L u
  | .list l => DeepList L l
  | .map m => DeepItems L m
  | _ => True
/-- `Deep` for all entries. -/
def DeepList (L : Value N → Prop) : List (Value N) → Prop
  | [] => True
  | v :: t => Deep L v ∧ DeepList L t
/-- `Deep` for all values. -/
def DeepItems (L : Value N → Prop) : List (Str × Value N) → Prop
  | [] => True
  | (_, v) :: t => Deep L v ∧ DeepItems L t
end

/-- All artifacts occurring in the value, at any depth, have the property. -/
def Arts (Q : Desc → Prop) : Value N → Prop := Deep fun v => ∀ d, v = .art d → Q d

/-- All names of targets occurring in the value, at any depth, have the property. -/
def TargetNames (Q : Entity → Prop) : Value N → Prop := Deep fun v => ∀ e, v = .name e → Q e

/-- What can be obtained with the actions, blobs, trees and overlays recorded: what is given, the blobs, the
outputs of an action all inputs of which can be obtained, a tree all entries of which can be obtained, an overlay all
parts of which can be obtained.  (As this is the least such set, there is an order to obtain things in.) -/
inductive Avail (H : Hashes N) (R : Rec N) (given : Desc → Prop) : Desc → Prop
  | given {d : Desc} : given d → Avail H R given d
  | blob {s : Str} : s ∈ R.blobs → Avail H R given (.known (H.file s) .file none)
  | link {s : Str} : s ∈ R.blobs → Avail H R given (.known (H.link s) .symlink none)
  | action {a : Act N} {p : Str} : a ∈ R.actions → (∀ e ∈ a.inputs, Avail H R given e.2) →
      p ∈ a.files ∨ p ∈ a.dirs → Avail H R given (.action (a.id H.h H.hexFloat) p)
  | tree {t : List (Str × Desc)} : t ∈ R.trees → (∀ e ∈ t, Avail H R given e.2) →
      Avail H R given (.tree (treeId H.h t))
  | overlay {l : List Desc} {b : Bool} : (l, b) ∈ R.overlays → (∀ d ∈ l, Avail H R given d) →
      Avail H R given (.overlay (overlayId H.h l b))

/-- A stage: a map of artifacts that can all be put at their locations, given by normal paths. -/
def IsStage (v : Value N) : Prop :=
  ∃ m : OMap Str Desc, v = artMap m.items ∧ Stageable m ∧ ∀ k d, m.find k = some d → toNormalPath k = k

/-- Fields of an abstract node: lists of strings, and lists of nodes, under different names. -/
def NodeFields (strings targets : Value N) : Prop :=
  ∃ ms mt, strings = .map ms ∧ targets = .map mt ∧ (∀ e ∈ ms, ∃ l : List Str, e.2 = .list (l.map .str)) ∧
    (∀ e ∈ mt, ∃ l, e.2 = .list l ∧ ∀ v ∈ l, (∃ w, v = .valueNode w) ∨ ∃ t s u, v = .absNode t s u) ∧
    ∀ e ∈ ms, ∀ e' ∈ mt, e.1 ≠ e'.1

/-- Every result occurring in the value, at any depth, consists of two stages and a map, every value node
contains a result, and every abstract node has proper fields. -/
def WellFormed : Value N → Prop := Deep fun v =>
  (∀ a p r, v = .result a p r → IsStage a ∧ IsStage r ∧ ∃ m, p = .map m) ∧
  (∀ w, v = .valueNode w → ∃ a p r, w = .result a p r) ∧
  ∀ t s u, v = .absNode t s u → NodeFields s u

/-- No name, artifact, result or node occurs in the definition of the function or of those it imports, as
definitions are read from files. -/
def Written (f : Fn N Desc) : Prop := BuiltFn (fun _ => False) f

/-! ## Lemmas -/

theorem deepList_iff {L : Value N → Prop} {l : List (Value N)} : DeepList L l ↔ ∀ v ∈ l, Deep L v := by
  induction l with
  | nil => simp [DeepList]
  | cons v t ih => simp [DeepList, ih]

theorem deepItems_iff {L : Value N → Prop} {m : List (Str × Value N)} :
    DeepItems L m ↔ ∀ e ∈ m, Deep L e.2 := by
  induction m with
  | nil => simp [DeepItems]
  | cons e t ih => obtain ⟨k, v⟩ := e; simp [DeepItems, ih]

theorem deep_list {L : Value N → Prop} {l : List (Value N)} : Deep L (.list l) ↔ ∀ v ∈ l, Deep L v := by
  rw [← deepList_iff]; simp only [Deep]

theorem deep_map {L : Value N → Prop} {m : List (Str × Value N)} :
    Deep L (.map m) ↔ ∀ e ∈ m, Deep L e.2 := by
  rw [← deepItems_iff]; simp only [Deep]

mutual
theorem built_deep {L : Value N → Prop} : ∀ v : Value N, Built (Deep L) v ↔ Deep L v
  | .none => by simp [Built, Deep]
  | .bool _ => by simp [Built, Deep]
  | .num _ => by simp [Built, Deep]
  | .str _ => by simp [Built, Deep]
  | .name _ => by simp [Built]
  | .art _ => by simp [Built]
  | .result _ _ _ => by simp [Built]
  | .valueNode _ => by simp [Built]
  | .absNode _ _ _ => by simp [Built]
  | .list l => by
    simp only [Built, Deep]
    exact builtList_deep l
  | .map m => by
    simp only [Built, Deep]
    exact builtItems_deep m
theorem builtList_deep {L : Value N → Prop} : ∀ l : List (Value N), BuiltList (Deep L) l ↔ DeepList L l
  | [] => by simp [BuiltList, DeepList]
  | v :: t => by
    simp only [BuiltList, DeepList]
    rw [built_deep v, builtList_deep t]
theorem builtItems_deep {L : Value N → Prop} :
    ∀ m : List (Str × Value N), BuiltItems (Deep L) m ↔ DeepItems L m
  | [] => by simp [BuiltItems, DeepItems]
  | (k, v) :: t => by
    simp only [BuiltItems, DeepItems]
    rw [built_deep v, builtItems_deep t]
end

mutual
theorem deep_mono {L L' : Value N → Prop} (h : ∀ v, L v → L' v) : ∀ v : Value N, Deep L v → Deep L' v
  | .none, _ => by simp [Deep]
  | .bool _, _ => by simp [Deep]
  | .num _, _ => by simp [Deep]
  | .str _, _ => by simp [Deep]
  | .name _, hv => by simp only [Deep] at hv ⊢; exact h _ hv
  | .art _, hv => by simp only [Deep] at hv ⊢; exact h _ hv
  | .result s p r, hv => by
    simp only [Deep] at hv ⊢
    exact ⟨h _ hv.1, deep_mono h s hv.2.1, deep_mono h p hv.2.2.1, deep_mono h r hv.2.2.2⟩
  | .valueNode v, hv => by
    simp only [Deep] at hv ⊢
    exact ⟨h _ hv.1, deep_mono h v hv.2⟩
  | .absNode t s u, hv => by
    simp only [Deep] at hv ⊢
    exact ⟨h _ hv.1, deep_mono h s hv.2.1, deep_mono h u hv.2.2⟩
  | .list l, hv => by simp only [Deep] at hv ⊢; exact deepList_mono h l hv
  | .map m, hv => by simp only [Deep] at hv ⊢; exact deepItems_mono h m hv
theorem deepList_mono {L L' : Value N → Prop} (h : ∀ v, L v → L' v) :
    ∀ l : List (Value N), DeepList L l → DeepList L' l
  | [], _ => by simp [DeepList]
  | v :: t, hv => by
    simp only [DeepList] at hv ⊢
    exact ⟨deep_mono h v hv.1, deepList_mono h t hv.2⟩
theorem deepItems_mono {L L' : Value N → Prop} (h : ∀ v, L v → L' v) :
    ∀ l : List (Str × Value N), DeepItems L l → DeepItems L' l
  | [], _ => by simp [DeepItems]
  | (_, v) :: t, hv => by
    simp only [DeepItems] at hv ⊢
    exact ⟨deep_mono h v hv.1, deepItems_mono h t hv.2⟩
end

mutual
theorem built_mono {P P' : Value N → Prop} (h : ∀ v, P v → P' v) : ∀ v : Value N, Built P v → Built P' v
  | .none, _ => by simp [Built]
  | .bool _, _ => by simp [Built]
  | .num _, _ => by simp [Built]
  | .str _, _ => by simp [Built]
  | .name _, hv => by simp only [Built] at hv ⊢; exact h _ hv
  | .art _, hv => by simp only [Built] at hv ⊢; exact h _ hv
  | .result _ _ _, hv => by simp only [Built] at hv ⊢; exact h _ hv
  | .valueNode _, hv => by simp only [Built] at hv ⊢; exact h _ hv
  | .absNode _ _ _, hv => by simp only [Built] at hv ⊢; exact h _ hv
  | .list l, hv => by simp only [Built] at hv ⊢; exact builtList_mono h l hv
  | .map m, hv => by simp only [Built] at hv ⊢; exact builtItems_mono h m hv
theorem builtList_mono {P P' : Value N → Prop} (h : ∀ v, P v → P' v) :
    ∀ l : List (Value N), BuiltList P l → BuiltList P' l
  | [], _ => by simp [BuiltList]
  | v :: t, hv => by
    simp only [BuiltList] at hv ⊢
    exact ⟨built_mono h v hv.1, builtList_mono h t hv.2⟩
theorem builtItems_mono {P P' : Value N → Prop} (h : ∀ v, P v → P' v) :
    ∀ l : List (Str × Value N), BuiltItems P l → BuiltItems P' l
  | [], _ => by simp [BuiltItems]
  | (_, v) :: t, hv => by
    simp only [BuiltItems] at hv ⊢
    exact ⟨built_mono h v hv.1, builtItems_mono h t hv.2⟩
end

mutual
theorem builtFn_mono {P P' : Value N → Prop} (h : ∀ v, P v → P' v) :
    ∀ f : Fn N Desc, BuiltFn P f → BuiltFn P' f
  | .mk _ i e, hf => by
    simp only [BuiltFn] at hf ⊢
    exact ⟨built_mono h e hf.1, builtFns_mono h i hf.2⟩
theorem builtFns_mono {P P' : Value N → Prop} (h : ∀ v, P v → P' v) :
    ∀ l : List (Str × Fn N Desc), BuiltFns P l → BuiltFns P' l
  | [], _ => by simp [BuiltFns]
  | (_, f) :: t, hf => by
    simp only [BuiltFns] at hf ⊢
    exact ⟨builtFn_mono h f hf.1, builtFns_mono h t hf.2⟩
end

theorem deep_arts {L : Value N → Prop} {l : List (Str × Desc)} :
    Deep L (artMap l) ↔ ∀ e ∈ l, L (.art e.2) := by
  unfold artMap
  rw [deep_map]
  constructor
  · intro h e he
    have := h _ (List.mem_map_of_mem he)
    simpa only [Deep] using this
  · intro h e he
    obtain ⟨x, hx, rfl⟩ := List.mem_map.1 he
    simpa only [Deep] using h x hx

section
variable [DecidableEq N] {c : Ctx N}

theorem within_iff {r s : Rec N} : r.within s = true ↔ (∀ a ∈ r.actions, a ∈ s.actions) ∧
    (∀ b ∈ r.blobs, b ∈ s.blobs) ∧ (∀ t ∈ r.trees, t ∈ s.trees) ∧ ∀ o ∈ r.overlays, o ∈ s.overlays := by
  unfold Rec.within
  simp [List.all_eq_true, and_assoc]

theorem keep_some {r : Rec N} {v w : Value N} (h : c.keep r v = some w) : w = v ∧ r.within c.final = true := by
  unfold Ctx.keep at h
  split at h
  · exact ⟨(Option.some.inj h).symm, by assumption⟩
  · cases h

variable {P : Value N → Prop}

theorem keeps_arg {key : String} {dflt : Value N} {next : Value N → Prog N Desc} (hd : Built P dflt)
    (h : ∀ v, Built P v → ProgKeeps P (next v)) : ProgKeeps P (arg key dflt next) := by
  intro o ho
  cases o with
  | none => exact h _ hd
  | some v => exact h v (ho v rfl)

theorem keeps_rawArg {key : String} {dflt : Value N} {next : Value N → Prog N Desc} (hd : Built P dflt)
    (h : ∀ v, Built P v → ProgKeeps P (next v)) : ProgKeeps P (rawArg key dflt next) := by
  intro o ho
  cases o with
  | none => exact h _ hd
  | some v => exact h v (ho v rfl)

theorem keeps_must {key : String} {next : Value N → Prog N Desc}
    (h : ∀ v, Built P v → ProgKeeps P (next v)) : ProgKeeps P (must key next) := by
  intro o ho
  cases o with
  | none => intro v hv; cases hv
  | some v => exact h v (ho v rfl)

theorem keeps_elim {α : Type} {o : Option α} {d : Prog N Desc} {k : α → Prog N Desc} (hd : ProgKeeps P d)
    (h : ∀ a, o = some a → ProgKeeps P (k a)) : ProgKeeps P (o.elim d k) := by
  cases o with
  | none => exact hd
  | some a => exact h a rfl

theorem keeps_none : ProgKeeps P (.done none : Prog N Desc) := by
  intro v hv
  cases hv

theorem keeps_done {v : Value N} (h : Built P v) : ProgKeeps P (.done (some v)) := by
  intro w hw
  cases hw
  exact h

/-- What the rule is given has the property. -/
structure Given (L : Value N → Prop) (c : Ctx N) : Prop where
  params : ∀ e ∈ c.params, Deep L e.2
  deps : ∀ e tr a p r, c.deps e tr = some (a, p, r) → Deep L a ∧ Deep L p ∧ Deep L r

theorem keeps_obtain {L : Value N → Prop} (g : Given L c)
    {next : Value N × Value N × Value N → Prog N Desc}
    (h : ∀ a p r, Deep L a → Deep L p → Deep L r → ProgKeeps (Deep L) (next (a, p, r))) :
    ProgKeeps (Deep L) (obtain c next) := by
  refine keeps_must fun ref _ => keeps_arg (built_map.2 (by simp)) fun tr _ => keeps_elim keeps_none ?_
  rintro ⟨a, p, r⟩ ht
  obtain ⟨e, -, hd⟩ := Option.bind_eq_some_iff.1 ht
  obtain ⟨h1, h2, h3⟩ := g.deps e tr a p r hd
  exact h a p r h1 h2 h3

/-- What has to be shown for the functions that make new artifacts, results and nodes. -/
structure Makes (L : Value N → Prop) (c : Ctx N) : Prop where
  blob : ∀ s, s ∈ c.final.blobs → L (.art (.known (c.hashes.file s) .file none))
  link : ∀ s, s ∈ c.final.blobs → L (.art (.known (c.hashes.link s) .symlink none))
  action : ∀ a : Act N, a ∈ c.final.actions → (c.tainted = [] → a.mayFail = none ∧ a.noCache = false) →
    (∀ e ∈ a.inputs, L (.art e.2)) → ∀ p, p ∈ a.files ∨ p ∈ a.dirs → L (.art (.action (a.id c.hashes.h c.hashes.hexFloat) p))
  tree : ∀ t, t ∈ c.final.trees → (∀ e ∈ t, L (.art e.2)) → L (.art (.tree (treeId c.hashes.h t)))
  overlay : ∀ l b, (l, b) ∈ c.final.overlays → (∀ d ∈ l, L (.art d)) → L (.art (.overlay (overlayId c.hashes.h l b)))
  result : ∀ a m r, IsStage a → IsStage r → L (.result a (.map m) r)
  valueNode : ∀ a p r, L (.valueNode (.result a p r))
  absNode : ∀ t s u v, absNodeValue t s u = some v → L v

theorem actionCall_inputs {h : Hashing N} {hexFloat : N → Str} {one : N} {tainted : List Str} {call : Call N}
    {a : Act N} {r : OMap Str Desc} (hc : actionCall h hexFloat one tainted call = some (a, r)) :
    ∃ inputs stage cwd, artItemsOf call.inputs = some inputs ∧ checkStage (omapOf inputs) = .ok stage ∧
      cwdOf call.cwd = some cwd ∧ a.inputs = (addDirFor (emptyDir h) cwd stage).items := by
  unfold actionCall at hc
  obtain ⟨inputs, hin, hc⟩ := Option.bind_eq_some_iff.1 hc
  cases hs : checkStage (omapOf inputs) with
  | conflict p => rw [hs] at hc; cases hc
  | ub => rw [hs] at hc; cases hc
  | ok stage =>
  rw [hs] at hc
  simp only at hc
  obtain ⟨outs, houts, hc⟩ := Option.bind_eq_some_iff.1 hc
  obtain ⟨dirs, hdirs, hc⟩ := Option.bind_eq_some_iff.1 hc
  split at hc
  · cases hc
  split at hc
  · cases hc
  obtain ⟨cmd, hcmd, hc⟩ := Option.bind_eq_some_iff.1 hc
  split at hc
  · cases hc
  obtain ⟨cwd, hcwd, hc⟩ := Option.bind_eq_some_iff.1 hc
  obtain ⟨env, henv, hc⟩ := Option.bind_eq_some_iff.1 hc
  obtain ⟨mf, hmf, hc⟩ := Option.bind_eq_some_iff.1 hc
  obtain ⟨fail, hfail, hc⟩ := Option.bind_eq_some_iff.1 hc
  obtain ⟨nc, hnc, hc⟩ := Option.bind_eq_some_iff.1 hc
  obtain ⟨scale, hscale, hc⟩ := Option.bind_eq_some_iff.1 hc
  obtain ⟨props, hprops, hc⟩ := Option.bind_eq_some_iff.1 hc
  simp only [Option.some.injEq, Prod.mk.injEq] at hc
  refine ⟨inputs, stage, cwd, hin, hs, hcwd, ?_⟩
  rw [← hc.1]

theorem keeps_action {L : Value N → Prop} (hm : Makes L c) {call : Call N} {v : Value N}
    (hi : Deep L call.inputs) (h : actionValue c call = some v) : Deep L v := by
  obtain ⟨⟨a, r⟩, hc, hk⟩ := Option.bind_eq_some_iff.1 h
  obtain ⟨rfl, hw⟩ := keep_some hk
  obtain ⟨w1, -, w3, -⟩ := within_iff.1 hw
  rw [deep_arts]
  rintro ⟨k, d⟩ hd
  obtain ⟨p, rfl, hp, -⟩ := C71_outputs _ _ _ _ _ _ _ hc k d (OMap.mem_items.1 hd)
  refine hm.action a (w1 a (by simp)) (fun h => C71_untainted _ _ _ _ _ _ (h ▸ hc)) ?_ p hp
  obtain ⟨inputs, stage, cwd, h1, h2, h3, h4⟩ := actionCall_inputs hc
  rw [artItemsOf_some.1 h1, deep_arts] at hi
  have hin : ∀ k d, stage.find k = some d → L (.art d) := by
    intro k d hk
    obtain ⟨k', hk', -⟩ := (C37_content _ _ h2 k d).1 hk
    rw [find_omapOf] at hk'
    exact hi _ (assoc_some_mem hk')
  rw [h4]
  rintro ⟨k', d'⟩ he
  have he := OMap.mem_items.1 he
  have ht : dirTrees call = if cwd = [] ∨ cwd = dot then [] else if mayAddDir cwd stage then [[]] else [] := by
    unfold dirTrees
    rw [h1, h3, Option.map_some, h2]
  unfold addDirFor at he
  split at he
  · exact hin _ _ he
  · rename_i hc1
    split at he
    · rename_i hc2
      rw [OMap.find_assign] at he
      split at he
      · cases he
        refine hm.tree [] (w3 [] ?_) (by simp)
        rw [ht, if_neg hc1, if_pos hc2]
        simp
      · exact hin _ _ he
    · exact hin _ _ he

theorem treeContent_mem {A : Type} (t : List (Str × A)) (r : OMap Str A) (k : Str) (a : A)
    (h : (treeContent t r).find k = some a) : r.find k = some a ∨ ∃ e ∈ t, e.2 = a := by
  induction t generalizing r with
  | nil => exact Or.inl h
  | cons e t ih =>
    obtain ⟨k', a'⟩ := e
    unfold treeContent at h
    rcases ih _ h with h | ⟨e, he, rfl⟩
    · rw [OMap.find_emplace] at h
      split at h
      · cases hr : r.find k with
        | none =>
          simp_all
        | some b =>
          simp_all
      · exact Or.inl h
    · exact Or.inr ⟨e, List.mem_cons_of_mem _ he, rfl⟩

theorem treeOf_arts {L : Value N → Prop} {v : Value N} {t : List (Str × Desc)} (hv : Deep L v)
    (h : treeOf v = some t) : ∀ e ∈ t, L (.art e.2) := by
  obtain ⟨l, hl, h⟩ := Option.bind_eq_some_iff.1 h
  rw [artItemsOf_some.1 hl, deep_arts] at hv
  unfold exprToTree at h
  split at h
  · rename_i m hm
    cases h
    split at hm
    · cases hm
      rintro ⟨k, d⟩ he
      rcases treeContent_mem _ _ _ _ (OMap.mem_items.1 he) with h1 | ⟨⟨k', d'⟩, he', rfl⟩
      · simp at h1
      · have := OMap.mem_items.1 he'
        rw [find_omapOf] at this
        exact hv (k', d') (assoc_some_mem this)
    · cases hm
    · cases hm
  · cases h

theorem stageOf_some {v w : Value N} (h : stageOf v = some w) : IsStage w ∧ ∀ L, Deep L v → Deep L w := by
  obtain ⟨l, hl, h⟩ := Option.bind_eq_some_iff.1 h
  split at h
  · rename_i m hm
    cases h
    have hc := C37_content _ _ hm
    have hs := (C37_exact _).1 ⟨_, hm⟩
    refine ⟨⟨m, rfl, ?_, ?_⟩, ?_⟩
    · constructor
      · intro k a hk
        obtain ⟨k', hk', e, -⟩ := (hc k a).1 hk
        rw [← e]
        exact hs.inside k' a hk'
      · intro k a k2 a2 hk hk2
        obtain ⟨k', hk', e, -⟩ := (hc k a).1 hk
        obtain ⟨k2', hk2', e2, -⟩ := (hc k2 a2).1 hk2
        rw [← e, ← e2]
        exact hs.free k' a k2' a2 hk' hk2'
    · intro k d hk
      obtain ⟨-, -, -, h⟩ := (hc k d).1 hk
      exact h
    · intro L hd
      rw [artItemsOf_some.1 hl, deep_arts] at hd
      rw [deep_arts]
      rintro ⟨k, d⟩ he
      obtain ⟨k', hk', -⟩ := (hc k d).1 (OMap.mem_items.1 he)
      rw [find_omapOf] at hk'
      exact hd (k', d) (assoc_some_mem hk')
  · cases h

theorem allOf_mem {α β : Type} {f : α → Option β} {l : List α} {r : List β} (h : allOf f l = some r) :
    ∀ b ∈ r, ∃ a ∈ l, f a = some b := by
  rw [allOf_some] at h
  intro b hb
  have : some b ∈ l.map f := by rw [h]; exact List.mem_map_of_mem hb
  obtain ⟨a, ha, e⟩ := List.mem_map.1 this
  exact ⟨a, ha, e⟩

theorem absNodeValue_some {type strings targets v : Value N} (h : absNodeValue type strings targets = some v) :
    ∃ t, v = .absNode t strings targets := by
  obtain ⟨t, -, h⟩ := Option.bind_eq_some_iff.1 h
  obtain ⟨s, -, h⟩ := Option.bind_eq_some_iff.1 h
  obtain ⟨u, -, h⟩ := Option.bind_eq_some_iff.1 h
  split at h
  · exact ⟨t, (Option.some.inj h).symm⟩
  · cases h

theorem keeps_overlay {L : Value N → Prop} (hm : Makes L c) {b : Bool} :
    ProgKeeps (Deep L) (overlayFn c b).prog := by
  dsimp only [overlayFn]
  refine keeps_arg (built_list.2 (by simp)) fun v hv => ?_
  intro w hw
  obtain ⟨l, hl, hw⟩ := Option.bind_eq_some_iff.1 hw
  obtain ⟨ts, hts, hw⟩ := Option.bind_eq_some_iff.1 hw
  obtain ⟨rfl, hin⟩ := keep_some hw
  simp only [Built, Deep]
  obtain ⟨-, -, h3, h4⟩ := within_iff.1 hin
  refine hm.overlay _ _ (h4 _ (by simp)) ?_
  intro d hd
  obtain ⟨t, ht, rfl⟩ := List.mem_map.1 hd
  refine hm.tree t (h3 t ht) ?_
  obtain ⟨x, hx, hxt⟩ := allOf_mem hts t ht
  rw [Val.eq_of_list? hl, built_list] at hv
  exact treeOf_arts ((built_deep _).1 (hv x hx)) hxt

theorem fns_keep {L : Value N → Prop} (g : Given L c) (hm : Makes L c) :
    ∀ e ∈ ruleFns c, ProgKeeps (Deep L) e.2.prog := by
  have hmap : Built (Deep L) (.map [] : Value N) := built_map.2 (by simp)
  have hlist : Built (Deep L) (.list [] : Value N) := built_list.2 (by simp)
  have hstr : ∀ s, Built (Deep L) (.str s : Value N) := fun s => by simp [Built]
  intro e he
  simp only [ruleFns, List.mem_cons, List.not_mem_nil, or_false] at he
  rcases he with rfl | rfl | rfl | rfl | rfl | rfl | rfl | rfl | rfl | rfl | rfl | rfl | rfl
  · refine keeps_must fun v _ => ?_
    intro w hw
    obtain ⟨s, -, hw⟩ := Option.bind_eq_some_iff.1 hw
    exact (built_deep w).2 (g.params _ (assoc_some_mem hw))
  · exact keeps_obtain g fun a p r ha hp hr => keeps_done ((built_deep _).2 ha)
  · exact keeps_obtain g fun a p r ha hp hr => keeps_done ((built_deep _).2 hr)
  · refine keeps_obtain g fun a p r ha hp hr => keeps_must fun v _ => keeps_elim keeps_none fun s _ =>
      keeps_elim keeps_none fun m hpm => keeps_elim (keeps_arg hlist fun v hv => keeps_done hv) fun w hw =>
        keeps_done ((built_deep _).2 ?_)
    have hpm : p = .map m := Val.eq_of_map? hpm
    rw [hpm, deep_map] at hp
    exact hp _ (assoc_some_mem hw)
  · dsimp only [actionFn]
    refine keeps_arg hmap fun inputs hi => keeps_arg hlist fun outs _ => keeps_arg hlist fun dirs _ =>
      keeps_arg hlist fun cmd _ => keeps_arg (hstr _) fun cwd _ => keeps_arg hmap fun env _ =>
      keeps_rawArg hlist fun mayFail _ => keeps_rawArg hlist fun noCache _ =>
      keeps_arg trivial fun scale _ => keeps_arg hmap fun props _ => ?_
    split
    · intro v hv
      exact (built_deep v).2 (keeps_action hm ((built_deep _).1 hi) hv)
    · refine keeps_arg (hstr _) fun msg _ => ?_
      intro v hv
      exact (built_deep v).2 (keeps_action hm ((built_deep _).1 hi) hv)
  · dsimp only [blobFn]
    refine keeps_arg (hstr _) fun v _ => ?_
    intro w hw
    obtain ⟨s, -, hw⟩ := Option.bind_eq_some_iff.1 hw
    obtain ⟨rfl, hin⟩ := keep_some hw
    simp only [Built, Deep]
    exact hm.blob s ((within_iff.1 hin).2.1 s (by simp))
  · dsimp only [symlinkFn]
    refine keeps_arg (hstr _) fun v _ => ?_
    intro w hw
    obtain ⟨s, -, hw⟩ := Option.bind_eq_some_iff.1 hw
    split at hw
    · obtain ⟨rfl, hin⟩ := keep_some hw
      simp only [Built, Deep]
      exact hm.link s ((within_iff.1 hin).2.1 s (by simp))
    · cases hw
  · dsimp only [treeFn]
    refine keeps_arg hmap fun v hv => ?_
    intro w hw
    obtain ⟨t, ht, hw⟩ := Option.bind_eq_some_iff.1 hw
    obtain ⟨rfl, hin⟩ := keep_some hw
    simp only [Built, Deep]
    exact hm.tree t ((within_iff.1 hin).2.2.1 t (by simp)) (treeOf_arts ((built_deep _).1 hv) ht)
  · exact keeps_overlay hm
  · exact keeps_overlay hm
  · dsimp only [valueNodeFn]
    refine keeps_arg trivial fun v hv => ?_
    intro w hw
    cases v with
    | result a p r =>
      cases hw
      have := (built_deep _).1 hv
      simp only [Built, Deep] at this ⊢
      exact ⟨hm.valueNode a p r, this⟩
    | _ => cases hw
  · dsimp only [absNodeFn]
    refine keeps_arg trivial fun type _ => keeps_arg hmap fun strings hs => keeps_arg hmap fun targets ht => ?_
    intro w hw
    have hl := hm.absNode _ _ _ _ hw
    obtain ⟨t, rfl⟩ := absNodeValue_some hw
    simp only [Built, Deep]
    exact ⟨hl, (built_deep _).1 hs, (built_deep _).1 ht⟩
  · dsimp only [resultFn]
    refine keeps_arg hmap fun artifacts ha => keeps_arg hmap fun runfiles hr => keeps_arg hmap fun provides hp => ?_
    intro w hw
    obtain ⟨a, h1, hw⟩ := Option.bind_eq_some_iff.1 hw
    obtain ⟨r, h2, hw⟩ := Option.bind_eq_some_iff.1 hw
    obtain ⟨m, h3, hw⟩ := Option.bind_eq_some_iff.1 hw
    cases hw
    have hp := (built_deep _).1 hp
    obtain ⟨s1, d1⟩ := stageOf_some h1
    obtain ⟨s2, d2⟩ := stageOf_some h2
    simp only [Built, Deep]
    refine ⟨?_, d1 L ((built_deep _).1 ha), hp, d2 L ((built_deep _).1 hr)⟩
    rw [Val.eq_of_map? h3]
    exact hm.result a m r s1 s2

theorem ruleResult_deep {L : Value N → Prop} (g : Given L c) (hm : Makes L c) {O : Ops N Desc} {n : Nat}
    {f : Fn N Desc} {ρ : Env N Desc} (hf : Written f) (hρ : ∀ x, Deep L (ρ x)) {a p r : Value N}
    (h : ruleResult c O n f ρ = some (a, p, r)) : Deep L (.result a p r) := by
  unfold ruleResult at h
  split at h
  · rename_i a' p' r' he
    cases h
    refine (built_deep _).1 (evaluate_built _ (P := Deep L) ?_ n f (builtFn_mono (fun _ h => h.elim) f hf) ρ
      (fun x => (built_deep _).2 (hρ x)) _ he)
    intro name reg hreg
    exact fns_keep g hm _ (assoc_some_mem hreg)
  · cases h

theorem absNodeValue_fields {type strings targets v : Value N}
    (h : absNodeValue type strings targets = some v) : NodeFields strings targets := by
  obtain ⟨t, -, h⟩ := Option.bind_eq_some_iff.1 h
  obtain ⟨s, hs, h⟩ := Option.bind_eq_some_iff.1 h
  obtain ⟨u, hu, h⟩ := Option.bind_eq_some_iff.1 h
  split at h
  · rename_i hc
    simp only [Bool.and_eq_true] at hc
    obtain ⟨⟨h1, h2⟩, h3⟩ := hc
    refine ⟨s, u, Val.eq_of_map? hs, Val.eq_of_map? hu, ?_, ?_, ?_⟩
    · intro e he
      have := List.all_eq_true.1 h1 e he
      split at this
      · rename_i l hl
        refine ⟨l.map fun v => v.str?.getD [], ?_⟩
        rw [Val.eq_of_list? hl, List.map_map]
        congr 1
        conv_lhs => rw [← List.map_id l]
        refine List.map_congr_left fun v hv => ?_
        have := List.all_eq_true.1 this v hv
        obtain ⟨x, hx⟩ := Option.isSome_iff_exists.1 this
        simp only [id, Function.comp, hx, Option.getD_some]
        exact Val.eq_of_str? hx
      · cases this
    · intro e he
      have := List.all_eq_true.1 h2 e he
      split at this
      · rename_i l hl
        refine ⟨l, Val.eq_of_list? hl, fun v hv => ?_⟩
        have := List.all_eq_true.1 this v hv
        cases v with
        | valueNode w => exact Or.inl ⟨w, rfl⟩
        | absNode t s u => exact Or.inr ⟨t, s, u, rfl⟩
        | _ => cases this
      · cases this
    · intro e he e' he' heq
      have := List.all_eq_true.1 h3 e he
      rw [Option.isNone_iff_eq_none, heq] at this
      obtain ⟨k, w⟩ := e'
      clear h h1 h2 h3 hu
      induction u with
      | nil => cases he'
      | cons x t ih =>
        obtain ⟨k', w'⟩ := x
        simp only [assoc] at this
        split at this
        · cases this
        · rename_i hk
          rcases List.mem_cons.1 he' with h | h
          · cases h; exact hk rfl
          · exact ih h this
  · cases h

/-! ## C72 -/

/-- All artifacts in the result of a rule, also those inside of the values provided, can be obtained with what the
rule recorded, from the artifacts of the dependencies: rules can not refer to anything else. -/
theorem C72_available (c : Ctx N) (O : Ops N Desc) (n : Nat) (f : Fn N Desc) (ρ : Env N Desc)
    (given : Desc → Prop) (hparams : ∀ e ∈ c.params, Arts given e.2)
    (hdeps : ∀ e tr a p r, c.deps e tr = some (a, p, r) → Arts given a ∧ Arts given p ∧ Arts given r)
    (hf : Written f) (hρ : ∀ x, Arts given (ρ x)) (a p r : Value N)
    (h : ruleResult c O n f ρ = some (a, p, r)) :
    Arts (Avail c.hashes c.final given) a ∧ Arts (Avail c.hashes c.final given) p ∧
    Arts (Avail c.hashes c.final given) r := by
  have hup : ∀ v : Value N, Arts given v → Arts (Avail c.hashes c.final given) v :=
    deep_mono fun v hv d hd => Avail.given (hv d hd)
  have := ruleResult_deep (L := fun v => ∀ d, v = .art d → Avail c.hashes c.final given d) (c := c)
    ⟨fun e he => hup _ (hparams e he), fun e tr a p r hd => by
      obtain ⟨h1, h2, h3⟩ := hdeps e tr a p r hd
      exact ⟨hup _ h1, hup _ h2, hup _ h3⟩⟩
    { blob := fun s hs d hd => by cases hd; exact Avail.blob hs
      link := fun s hs d hd => by cases hd; exact Avail.link hs
      action := fun x hx _ hi q hq d hd => by cases hd; exact Avail.action hx (fun e he => hi e he _ rfl) hq
      tree := fun t ht he d hd => by cases hd; exact Avail.tree ht (fun e h => he e h _ rfl)
      overlay := fun l b hl he d hd => by cases hd; exact Avail.overlay hl (fun x h => he x h _ rfl)
      result := fun _ _ _ _ _ d hd => by cases hd
      valueNode := fun _ _ _ d hd => by cases hd
      absNode := fun t s u v hv d hd => by
        obtain ⟨x, rfl⟩ := absNodeValue_some hv
        cases hd } hf (fun x => hup _ (hρ x)) h
  simp only [Deep] at this
  exact this.2

/-- The artifacts and runfiles in the result of a rule are stages, so everything can be put at its place; also
all results and nodes inside of what is provided have the proper form. -/
theorem C72_form (c : Ctx N) (O : Ops N Desc) (n : Nat) (f : Fn N Desc) (ρ : Env N Desc)
    (hparams : ∀ e ∈ c.params, WellFormed e.2)
    (hdeps : ∀ e tr a p r, c.deps e tr = some (a, p, r) → WellFormed a ∧ WellFormed p ∧ WellFormed r)
    (hf : Written f) (hρ : ∀ x, WellFormed (ρ x)) (a p r : Value N)
    (h : ruleResult c O n f ρ = some (a, p, r)) :
    IsStage a ∧ IsStage r ∧ (∃ m, p = .map m) ∧ WellFormed p := by
  have hart : ∀ d : Desc,
      (∀ a p r, (.art d : Value N) = .result a p r → IsStage a ∧ IsStage r ∧ ∃ m, p = .map m) ∧
      (∀ w, (.art d : Value N) = .valueNode w → ∃ a p r, w = .result a p r) ∧
      ∀ t s u, (.art d : Value N) = .absNode t s u → NodeFields s u :=
    fun d => ⟨fun _ _ _ h => (by cases h), fun _ h => (by cases h), fun _ _ _ h => (by cases h)⟩
  have := ruleResult_deep (c := c) ⟨hparams, hdeps⟩
    { blob := fun _ _ => hart _
      link := fun _ _ => hart _
      action := fun _ _ _ _ _ _ => hart _
      tree := fun _ _ _ => hart _
      overlay := fun _ _ _ _ => hart _
      result := fun a m r ha hr => ⟨fun _ _ _ h => (by cases h; exact ⟨ha, hr, m, rfl⟩), fun _ h => (by cases h),
        fun _ _ _ h => (by cases h)⟩
      valueNode := fun a p r => ⟨fun _ _ _ h => (by cases h), fun _ h => (by cases h; exact ⟨a, p, r, rfl⟩),
        fun _ _ _ h => (by cases h)⟩
      absNode := fun t s u v hv => by
        have hn := absNodeValue_fields hv
        obtain ⟨x, rfl⟩ := absNodeValue_some hv
        exact ⟨fun _ _ _ h => (by cases h), fun _ h => (by cases h),
          fun _ _ _ h => (by cases h; exact hn)⟩ }
    hf hρ h
  simp only [Deep] at this
  obtain ⟨h1, -, h3, -⟩ := this
  obtain ⟨g1, g2, g3⟩ := h1.1 a p r rfl
  exact ⟨g1, g2, g3, h3⟩

/-- Rules can not make names of targets: all names in the result of a rule occur in its fields or in the results of
the dependencies (or in the configuration). -/
theorem C72_names (c : Ctx N) (O : Ops N Desc) (n : Nat) (f : Fn N Desc) (ρ : Env N Desc)
    (known : Entity → Prop) (hparams : ∀ e ∈ c.params, TargetNames known e.2)
    (hdeps : ∀ e tr a p r, c.deps e tr = some (a, p, r) →
      TargetNames known a ∧ TargetNames known p ∧ TargetNames known r)
    (hf : Written f) (hρ : ∀ x, TargetNames known (ρ x)) (a p r : Value N)
    (h : ruleResult c O n f ρ = some (a, p, r)) : TargetNames known p := by
  have := ruleResult_deep (c := c) ⟨hparams, hdeps⟩
    { blob := fun _ _ _ h => by cases h
      link := fun _ _ _ h => by cases h
      action := fun _ _ _ _ _ _ _ h => by cases h
      tree := fun _ _ _ _ h => by cases h
      overlay := fun _ _ _ _ _ h => by cases h
      result := fun _ _ _ _ _ _ h => by cases h
      valueNode := fun _ _ _ _ h => by cases h
      absNode := fun t s u v hv d hd => by
        obtain ⟨x, rfl⟩ := absNodeValue_some hv
        cases hd } hf hρ h
  simp only [Deep] at this
  exact this.2.2.1

theorem avail_mono {H : Hashes N} {R R' : Rec N} {D D' : Desc → Prop}
    (h1 : ∀ a ∈ R.actions, a ∈ R'.actions) (h2 : ∀ b ∈ R.blobs, b ∈ R'.blobs)
    (h3 : ∀ t ∈ R.trees, t ∈ R'.trees) (h4 : ∀ o ∈ R.overlays, o ∈ R'.overlays)
    (hd : ∀ d, D d → Avail H R' D' d) {d : Desc} (h : Avail H R D d) : Avail H R' D' d := by
  induction h with
  | given h => exact hd _ h
  | blob h => exact .blob (h2 _ h)
  | link h => exact .link (h2 _ h)
  | action h _ hp ih => exact .action (h1 _ h) ih hp
  | tree h _ ih => exact .tree (h3 _ h) ih
  | overlay h _ ih => exact .overlay (h4 _ h) ih

/-- An analysed target: what was recorded, artifacts, provided values, runfiles. -/
structure RuleTarget (N : Type) where
  recorded : Rec N
  artifacts : Value N
  provides : Value N
  runfiles : Value N

/-- Everything recorded for the targets. -/
def recordedAll (l : List (RuleTarget N)) : Rec N where
  actions := l.flatMap fun t => t.recorded.actions
  blobs := l.flatMap fun t => t.recorded.blobs
  trees := l.flatMap fun t => t.recorded.trees
  overlays := l.flatMap fun t => t.recorded.overlays

/-- All artifacts of the target have the property. -/
def RuleTarget.All (Q : Desc → Prop) (t : RuleTarget N) : Prop :=
  Arts Q t.artifacts ∧ Arts Q t.provides ∧ Arts Q t.runfiles

/-- Analysis of targets one after the other (the last one first): source files, and targets defined by rules with
dependencies among the targets analysed already.  Neither fields nor configuration contain artifacts. -/
inductive Analysed (H : Hashes N) (source : Desc → Prop) : List (RuleTarget N) → Prop
  | nil : Analysed H source []
  | source {l : List (RuleTarget N)} {t : RuleTarget N} : Analysed H source l → t.All source → Analysed H source (t :: l)
  | rule {l : List (RuleTarget N)} {a p r : Value N} (c : Ctx N) (O : Ops N Desc) (n : Nat) (f : Fn N Desc)
      (ρ : Env N Desc) : Analysed H source l → c.hashes = H →
      (∀ e ∈ c.params, Arts (fun _ => False) e.2) → (∀ x, Arts (fun _ => False) (ρ x)) → Written f →
      (∀ e tr a p r, c.deps e tr = some (a, p, r) → ∃ R, RuleTarget.mk R a p r ∈ l) →
      ruleResult c O n f ρ = some (a, p, r) → Analysed H source (⟨c.final, a, p, r⟩ :: l)

theorem recorded_sub {t : RuleTarget N} {l : List (RuleTarget N)} {D : Desc → Prop} {H : Hashes N} {d : Desc}
    (h : Avail H (recordedAll l) D d) : Avail H (recordedAll (t :: l)) D d := by
  refine avail_mono ?_ ?_ ?_ ?_ (fun d hd => .given hd) h
  · intro a ha; simp only [recordedAll, List.flatMap_cons, List.mem_append]; exact Or.inr ha
  · intro a ha; simp only [recordedAll, List.flatMap_cons, List.mem_append]; exact Or.inr ha
  · intro a ha; simp only [recordedAll, List.flatMap_cons, List.mem_append]; exact Or.inr ha
  · intro a ha; simp only [recordedAll, List.flatMap_cons, List.mem_append]; exact Or.inr ha

theorem all_mono {Q Q' : Desc → Prop} (h : ∀ d, Q d → Q' d) {t : RuleTarget N} (ht : t.All Q) : t.All Q' :=
  ⟨deep_mono (fun _ hv d hd => h d (hv d hd)) _ ht.1, deep_mono (fun _ hv d hd => h d (hv d hd)) _ ht.2.1,
    deep_mono (fun _ hv d hd => h d (hv d hd)) _ ht.2.2⟩

/-- The analysis as a whole is closed: every artifact of every target can be obtained with everything that was
recorded, from source files. -/
theorem C72_analysis (H : Hashes N) (source : Desc → Prop) (l : List (RuleTarget N))
    (h : Analysed H source l) : ∀ t ∈ l, t.All (Avail H (recordedAll l) source) := by
  induction h with
  | nil => intro t ht; cases ht
  | source _ hs ih =>
    intro t ht
    rcases List.mem_cons.1 ht with rfl | ht
    · exact all_mono (fun d hd => .given hd) hs
    · exact all_mono (fun d hd => recorded_sub hd) (ih t ht)
  | @rule l a p r c O n f ρ _ hh hparams hρ hf hdeps hr ih =>
    intro t ht
    rcases List.mem_cons.1 ht with rfl | ht
    · subst hh
      have hfalse : ∀ v : Value N, Arts (fun _ => False) v → Arts (Avail c.hashes (recordedAll l) source) v :=
        deep_mono fun _ hv d hd => (hv d hd).elim
      have hd := C72_available c O n f ρ (Avail c.hashes (recordedAll l) source)
        (fun e he => hfalse _ (hparams e he))
        (fun e tr a p r hd => by
          obtain ⟨R, hR⟩ := hdeps e tr a p r hd
          exact ih _ hR) hf (fun x => hfalse _ (hρ x)) a p r hr
      refine all_mono (t := ⟨c.final, a, p, r⟩) (fun d hd => ?_) hd
      refine avail_mono ?_ ?_ ?_ ?_ (fun d hd => recorded_sub hd) hd
      · intro a ha; simp only [recordedAll, List.flatMap_cons, List.mem_append]; exact Or.inl ha
      · intro a ha; simp only [recordedAll, List.flatMap_cons, List.mem_append]; exact Or.inl ha
      · intro a ha; simp only [recordedAll, List.flatMap_cons, List.mem_append]; exact Or.inl ha
      · intro a ha; simp only [recordedAll, List.flatMap_cons, List.mem_append]; exact Or.inl ha
    · exact all_mono (fun d hd => recorded_sub hd) (ih t ht)

end

/-! ### Examples -/

/-- For examples: numbers are trivial. -/
def exampleOps : Ops Unit Desc where
  zero := ()
  one := ()
  isZero := fun _ => false
  positive := fun _ => true
  add := fun _ _ => ()
  mul := fun _ _ => ()
  ofNat := fun _ => ()
  round := fun _ => 1
  text := fun _ => "1".toList
  hash := Expr.hash demo
  provided := fun _ => none

/-- For examples: hash functions. -/
def exampleHashes : Hashes Unit where
  h := demo
  hexFloat := demoFloat
  file := fun s => ⟨demo.H s, .gitSHA1, false, s.length⟩
  link := fun s => ⟨demo.H s, .gitSHA1, false, s.length⟩

/-- For examples: call of a function. -/
def exampleFn (type : String) (args : List (String × Value Unit)) : Value Unit :=
  .map (("type".toList, .str type.toList) :: args.map fun e => (e.1.toList, e.2))

/-- For examples: the artifacts of the dependency. -/
def exampleDep : Value Unit :=
  exampleFn "DEP_ARTIFACTS" [("dep", exampleFn "FIELD" [("name", .str "src".toList)])]

/-- For examples: a rule that runs an action on the dependency, in a working directory, with a tree as runfile and a
symbolic link provided. -/
def exampleRule : Fn Unit Desc := .mk [] [] (exampleFn "RESULT" [
  ("artifacts", exampleFn "ACTION" [("cmd", .list [.str "cc".toList]), ("outs", .list [.str "./x.o".toList]),
    ("inputs", exampleDep), ("cwd", .str "work".toList)]),
  ("runfiles", exampleFn "singleton_map" [("key", .str "t".toList), ("value", exampleFn "TREE" [("$1", exampleDep)])]),
  ("provides", exampleFn "singleton_map" [("key", .str "l".toList),
    ("value", exampleFn "SYMLINK" [("data", .str "a/b".toList)])])])

/-- For examples: the action recorded. -/
def exampleAction : Act Unit where
  files := ["x.o".toList]
  dirs := []
  command := ["cc".toList]
  cwd := "work".toList
  env := []
  mayFail := none
  noCache := false
  timeout := ()
  props := []
  inputs := [("work".toList, emptyDir demo), ("x.c".toList, exampleSource)]

/-- For examples: a target. -/
def exampleName : Entity := .anonymous "r".toList "n".toList

/-- For examples: the stage of the dependency. -/
def exampleStage : Value Unit := artMap [("x.c".toList, exampleSource)]

/-- For examples: what the rule is given. -/
def exampleCtx : Ctx Unit where
  hashes := exampleHashes
  one := ()
  tainted := []
  params := [("src".toList, .name exampleName)]
  deps := fun e _ => if e = exampleName then some (exampleStage, .map [], .map []) else none
  final := {
    actions := [exampleAction]
    blobs := ["a/b".toList]
    trees := [[], [("x.c".toList, exampleSource)]]
    overlays := [] }

/-- For examples: the artifacts of the target. -/
def exampleArtifacts : Value Unit :=
  artMap [("x.o".toList, .action (exampleAction.id demo demoFloat) "x.o".toList)]

/-- For examples: what the target provides. -/
def exampleProvides : Value Unit :=
  artMap [("l".toList, .known (exampleHashes.link "a/b".toList) .symlink none)]

/-- For examples: the runfiles of the target. -/
def exampleRunfiles : Value Unit :=
  artMap [("t".toList, .tree (treeId demo [("x.c".toList, exampleSource)]))]

theorem example_result : ruleResult exampleCtx exampleOps 10 exampleRule (fun _ => .none) =
    some (exampleArtifacts, exampleProvides, exampleRunfiles) := by
  rfl

theorem exampleRule_written : Written exampleRule := by
  simp [Written, exampleRule, exampleFn, exampleDep, BuiltFn, BuiltFns, Built, BuiltItems, BuiltList]

/-- For examples: the source file. -/
def exampleGiven (d : Desc) : Prop := d = exampleSource

/-- For examples: the targets. -/
def exampleTargets : List (RuleTarget Unit) :=
  [⟨exampleCtx.final, exampleArtifacts, exampleProvides, exampleRunfiles⟩, ⟨{}, exampleStage, .map [], .map []⟩]

theorem example_analysed : Analysed exampleHashes exampleGiven exampleTargets := by
  refine .rule exampleCtx exampleOps 10 exampleRule (fun _ => .none) (.source .nil ?_) rfl ?_ ?_
    exampleRule_written ?_ example_result
  · refine ⟨?_, by simp [Arts, Deep, DeepItems], by simp [Arts, Deep, DeepItems]⟩
    unfold exampleStage Arts
    rw [deep_arts]
    intro e he d hd
    simp only [List.mem_singleton] at he
    subst he
    cases hd
    rfl
  · intro e he
    simp only [exampleCtx, List.mem_singleton] at he
    subst he
    simp [Arts, Deep]
  · intro x
    simp [Arts, Deep]
  · intro e tr a p r hd
    simp only [exampleCtx] at hd
    split at hd
    · cases hd
      exact ⟨{}, by simp⟩
    · cases hd

-- The output of the action, and the runfiles, can be obtained from the source file.
example : Arts (Avail exampleHashes (recordedAll exampleTargets) exampleGiven) exampleArtifacts ∧
    Arts (Avail exampleHashes (recordedAll exampleTargets) exampleGiven) exampleRunfiles :=
  have h := C72_analysis _ _ _ example_analysed _ List.mem_cons_self
  ⟨h.1, h.2.2⟩

-- Other outputs can not.
example : ¬ Avail exampleHashes exampleCtx.final exampleGiven
    (.action (exampleAction.id demo demoFloat) "y.o".toList) := by
  intro h
  generalize hd : Desc.action (exampleAction.id demo demoFloat) "y.o".toList = d at h
  cases h with
  | given h => cases h; cases hd
  | action h _ hp =>
    injection hd with _ hd
    subst hd
    simp only [exampleCtx, List.mem_singleton] at h
    subst h
    exact absurd hp (by decide)
  | _ => cases hd

example : IsStage exampleArtifacts ∧ IsStage exampleRunfiles := by
  have := C72_form exampleCtx exampleOps 10 exampleRule (fun _ => .none)
    (by
      intro e he
      simp only [exampleCtx, List.mem_singleton] at he
      subst he
      simp [WellFormed, Deep])
    (by
      intro e tr a p r hd
      simp only [exampleCtx] at hd
      split at hd
      · cases hd
        simp [WellFormed, exampleStage, artMap, Deep, DeepItems]
      · cases hd)
    exampleRule_written (fun _ => by simp [WellFormed, Deep]) _ _ _ example_result
  exact ⟨this.1, this.2.1⟩

example : TargetNames (fun e => e = exampleName) exampleProvides :=
  C72_names exampleCtx exampleOps 10 exampleRule (fun _ => .none) (fun e => e = exampleName)
    (by
      intro e he
      simp only [exampleCtx, List.mem_singleton] at he
      subst he
      simp [TargetNames, Deep])
    (by
      intro e tr a p r hd
      simp only [exampleCtx] at hd
      split at hd
      · cases hd
        simp [TargetNames, exampleStage, artMap, Deep, DeepItems]
      · cases hd)
    exampleRule_written (fun _ => by simp [TargetNames, Deep]) _ _ _ example_result

end Verif.Analyse.Rule
