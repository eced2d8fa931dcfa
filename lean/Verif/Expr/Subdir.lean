import Verif.Expr.Props
import Verif.Path.Props

/-!
# Staging to and from sub-directories: C60, C61
-/

namespace Verif.Expr

open Verif.Path

variable {N A : Type}

/-! ## Paths -/

theorem walk_rel (p : Place) {s : Str} (h : isAbs s = false) :
    p.walk s = (names s).foldl Place.follow p := by
  rw [walk_names, h]
  rfl

/-- The place of an appended path. -/
theorem place_append (p q : Str) : place (append p q) = (place p).walk q := by
  by_cases hq : isAbs q = true
  · unfold append place
    rw [if_pos hq, walk_names, walk_names, hq]
    rfl
  · have hq' : isAbs q = false := by simpa using hq
    by_cases hp : p = []
    · subst hp
      have : append [] q = q := by simp [append, hq']
      rw [this]
      rfl
    · have ha : isAbs (append p q) = isAbs p := by
        unfold append
        rw [if_neg hq]
        cases p with
        | nil => exact absurd rfl hp
        | cons c t => split <;> rfl
      rw [place_eq, ha, names_append hq', List.foldl_append, ← place_eq, walk_rel _ hq']

theorem up_follow (p : Place) (a : Str) : p.up ≤ (p.follow a).up := by
  unfold Place.follow
  split
  · exact Nat.le_refl _
  · split
    · split
      · split
        · exact Nat.le_refl _
        · exact Nat.le_succ _
      · exact Nat.le_refl _
    · exact Nat.le_refl _

/-- Following segments that do not lead above the start, from any place. -/
theorem foldl_below (l : List Str) (d : List Str)
    (h : l.foldl Place.follow ⟨false, 0, []⟩ = ⟨false, 0, d⟩) (p : Place) :
    l.foldl Place.follow p = { p with down := p.down ++ d } := by
  induction l using List.reverseRecOn generalizing d with
  | nil =>
    simp only [List.foldl_nil, Place.mk.injEq] at h
    simp [← h.2.2]
  | append_singleton l a ih =>
    rw [List.foldl_append, List.foldl_cons, List.foldl_nil] at h ⊢
    obtain ⟨q, hq⟩ : ∃ q, l.foldl Place.follow ⟨false, 0, []⟩ = q := ⟨_, rfl⟩
    rw [hq] at h
    have hup : q.up = 0 := by
      have := up_follow q a
      rw [h] at this
      simpa using this
    have habs : q.abs = false := by
      have : (q.follow a).abs = q.abs := by
        unfold Place.follow
        split
        · rfl
        · split
          · split
            · split <;> rfl
            · rfl
          · rfl
      rw [h] at this
      exact this.symm
    obtain ⟨qa, qu, qd⟩ := q
    simp only at hup habs
    subst hup habs
    rw [ih qd hq]
    unfold Place.follow at h ⊢
    by_cases h1 : a = [] ∨ a = ['.']
    · rw [if_pos h1] at h ⊢
      simp only [Place.mk.injEq, true_and] at h
      rw [h]
    · rw [if_neg h1] at h ⊢
      by_cases h2 : a = ['.', '.']
      · rw [if_pos h2] at h ⊢
        cases qd with
        | nil => simp at h
        | cons x t =>
          simp only [Place.mk.injEq, true_and] at h
          have hne : p.down ++ x :: t ≠ [] := by simp
          obtain ⟨y, s, hys⟩ := List.exists_cons_of_ne_nil hne
          simp only [hys]
          rw [← hys, ← h, List.dropLast_append_of_ne_nil (by simp)]
      · rw [if_neg h2] at h ⊢
        simp only [Place.mk.injEq, true_and] at h
        rw [← h]
        simp

/-- `lexically_relative` leads upwards, or to the right place. -/
theorem relative_sound {k sub : Str} (hk : isAbs k = false) (hs : isAbs sub = false)
    (hd : dotdot ∉ splitAt '/' sub) (d : List Str) (h : place (lexRelative k sub) = ⟨false, 0, d⟩) :
    place k = { place sub with down := (place sub).down ++ d } := by
  obtain ⟨h1, h2⟩ := place_lexRelative hk hs hd
  rw [place_append, walk_rel _ h1] at h2
  rw [place_rel h1] at h
  rw [← h2, foldl_below _ d h]

theorem names_canon_rel (u : Nat) (l : List Str) (hw : (⟨false, u, l⟩ : Place).WF) :
    elems (canon ⟨false, u, l⟩)
      = if (⟨false, u, l⟩ : Place).segs = [] then [dot] else (⟨false, u, l⟩ : Place).segs := by
  have ha : isAbs (canon ⟨false, u, l⟩) = false := isAbs_canon hw
  have hn : names (canon ⟨false, u, l⟩)
      = if (⟨false, u, l⟩ : Place).segs = [] then [dot] else (⟨false, u, l⟩ : Place).segs := by
    unfold canon
    simp only [Bool.false_eq_true, if_false]
    split
    · exact names_dot
    · exact names_join (segs_seg hw)
  have ht : hasTrail (canon ⟨false, u, l⟩) = false := by
    unfold hasTrail
    rcases canon_last hw with ⟨_, h2, _⟩ | ⟨c, h1, h2⟩
    · cases h2
    · rw [h2]
      simp [h1]
  rw [elems_rel ha, hn, ht]
  simp

theorem mismatch_prefix (b d : List Str) : mismatch (b ++ d) b = (d, []) := by
  induction b with
  | nil => cases d <;> rfl
  | cons x b ih => simp [mismatch, ih]

/-- `lexically_relative` of normalised paths, the first one being inside of the second one. -/
theorem relative_complete (b d : List Str) (hb : ∀ a ∈ b, ProperName a) (hd : ∀ a ∈ d, ProperName a) :
    place (lexRelative (canon ⟨false, 0, b ++ d⟩) (canon ⟨false, 0, b⟩)) = ⟨false, 0, d⟩ := by
  have hbd : ∀ a ∈ b ++ d, ProperName a := fun a ha => (List.mem_append.mp ha).elim (hb a) (hd a)
  have w1 : (⟨false, 0, b ++ d⟩ : Place).WF := ⟨hbd, fun h => by cases h⟩
  have w2 : (⟨false, 0, b⟩ : Place).WF := ⟨hb, fun h => by cases h⟩
  have hfold : d ≠ [] → place ((d.foldl append [])) = ⟨false, 0, d⟩ := by
    intro hne
    rw [foldl_append_join d (fun a ha => (hd a ha).seg) hne]
    have := place_canon (p := ⟨false, 0, d⟩) ⟨hd, fun h => by cases h⟩
    unfold canon Place.segs at this
    simpa [hne] using this
  have he : ∀ l : List Str, (∀ a ∈ l, ProperName a) → (l = [] → elems (canon ⟨false, 0, l⟩) = [dot]) ∧
      (l ≠ [] → elems (canon ⟨false, 0, l⟩) = l) := by
    intro l hl
    have hw : (⟨false, 0, l⟩ : Place).WF := ⟨hl, fun h => by cases h⟩
    have hs : (⟨false, 0, l⟩ : Place).segs = l := by simp [Place.segs]
    have := names_canon_rel 0 l hw
    refine ⟨fun h => ?_, fun h => ?_⟩
    · rw [this, if_pos (by rw [hs]; exact h)]
    · rw [this, if_neg (by rw [hs]; exact h), hs]
  unfold lexRelative
  rw [isAbs_canon w1, isAbs_canon w2]
  simp only [ne_eq, not_true_eq_false, if_false]
  by_cases hbn : b = []
  · subst hbn
    rw [(he [] hb).1 rfl]
    by_cases hdn : d = []
    · subst hdn
      rw [(he ([] ++ []) hbd).1 rfl]
      rfl
    · rw [(he ([] ++ d) hbd).2 (by simpa using hdn)]
      cases d with
      | nil => exact absurd rfl hdn
      | cons x t =>
        have hx := hd x (by simp)
        have hxd : x ≠ dot := hx.2.2.1
        have hm : mismatch ([] ++ x :: t) [dot] = (x :: t, [dot]) := by
          rw [List.nil_append, mismatch, if_neg hxd]
        have hc : countNames [dot] = 0 := by decide
        have hn : List.countP (fun x => x == dotdot) [dot] = 0 := by decide
        rw [hm]
        simp only [hc, hn, reduceCtorEq, false_and, if_false, Nat.lt_irrefl, true_and, false_or,
          List.head?_cons, Option.some.injEq, hx.2.1, Nat.sub_self, List.replicate_zero,
          List.nil_append]
        exact hfold (by simp)
  · rw [(he b hb).2 hbn, (he (b ++ d) hbd).2 (by simp [hbn]), mismatch_prefix]
    by_cases hdn : d = []
    · subst hdn
      rfl
    · have hc : countNames ([] : List Str) = 0 := rfl
      have hn : List.countP (fun x => x == dotdot) ([] : List Str) = 0 := rfl
      have hhead : d.head? ≠ some [] := by
        cases d with
        | nil => simp
        | cons x t => simpa using (hd x (by simp)).2.1
      simp only [hc, hn, hdn, false_and, if_false, Nat.lt_irrefl, true_and, false_or, hhead,
        Nat.sub_self, List.replicate_zero, List.nil_append]
      exact hfold hdn

/-! ## Staging -/

/-- `new` contains exactly the entries of `old` at their new keys; values for one key being equal. -/
structure Staged (O : Ops N A) (rename : Str → Str) (old new : Items N A) : Prop where
  asc : Ascending new
  complete : ∀ k v, (k, v) ∈ old → ∃ w, assoc (rename k) new = some w ∧ O.hash w = O.hash v
  sound : ∀ x w, assoc x new = some w → ∃ k, (k, w) ∈ old ∧ rename k = x

/-- Entries meeting at a new key are equal and cacheable. -/
def NoConflict (O : Ops N A) (rename : Str → Str) (old : Items N A) : Prop :=
  old.Pairwise (fun a b => rename a.1 = rename b.1 → O.hash a.2 = O.hash b.2 ∧ b.2.cacheable = true)

theorem stageItems_spec (O : Ops N A) (flat : Bool) (rename : Str → Str) :
    ∀ (t r pre : Items N A), Staged O rename pre r →
      (stageItems O flat rename t r = .fail ∧
        ¬ (NoConflict O rename t ∧ ∀ a ∈ pre, ∀ b ∈ t, rename a.1 = rename b.1 →
            O.hash a.2 = O.hash b.2 ∧ b.2.cacheable = true)) ∨
      (∃ r', stageItems O flat rename t r = .ok r' ∧ Staged O rename (pre ++ t) r' ∧
        NoConflict O rename t ∧ ∀ a ∈ pre, ∀ b ∈ t, rename a.1 = rename b.1 →
            O.hash a.2 = O.hash b.2 ∧ b.2.cacheable = true) := by
  intro t
  induction t with
  | nil =>
    intro r pre h
    refine Or.inr ⟨r, rfl, by simpa using h, List.Pairwise.nil, by simp⟩
  | cons kv t ih =>
    intro r pre h
    obtain ⟨k, v⟩ := kv
    have hstep : ∀ r' : Items N A, Staged O rename (pre ++ [(k, v)]) r' →
        (∀ a ∈ pre, rename a.1 = rename k → O.hash a.2 = O.hash v ∧ v.cacheable = true) →
        (stageItems O flat rename t r' = .fail ∧
        ¬ (NoConflict O rename ((k, v) :: t) ∧ ∀ a ∈ pre, ∀ b ∈ (k, v) :: t, rename a.1 = rename b.1 →
            O.hash a.2 = O.hash b.2 ∧ b.2.cacheable = true)) ∨
      (∃ r'', stageItems O flat rename t r' = .ok r'' ∧ Staged O rename (pre ++ (k, v) :: t) r'' ∧
        NoConflict O rename ((k, v) :: t) ∧ ∀ a ∈ pre, ∀ b ∈ (k, v) :: t, rename a.1 = rename b.1 →
            O.hash a.2 = O.hash b.2 ∧ b.2.cacheable = true) := by
      intro r' hr' hpre
      rcases ih r' (pre ++ [(k, v)]) hr' with ⟨h1, h2⟩ | ⟨r'', h1, h2, h3, h4⟩
      · refine Or.inl ⟨h1, fun ⟨h3, h4⟩ => h2 ?_⟩
        unfold NoConflict at h3
        rw [List.pairwise_cons] at h3
        refine ⟨h3.2, fun a ha b hb => ?_⟩
        rcases List.mem_append.mp ha with ha | ha
        · exact h4 a ha b (by simp [hb])
        · rw [List.mem_singleton.mp ha]
          exact h3.1 b hb
      · refine Or.inr ⟨r'', h1, by simpa using h2, ?_, fun a ha b hb => ?_⟩
        · unfold NoConflict
          rw [List.pairwise_cons]
          exact ⟨fun b hb => h4 (k, v) (by simp) b hb, h3⟩
        · rcases List.mem_cons.mp hb with rfl | hb
          · exact hpre a ha
          · exact h4 a (by simp [ha]) b hb
    unfold stageItems
    cases hr : assoc (rename k) r with
    | none =>
      have hnone : ∀ a ∈ pre, rename a.1 ≠ rename k := by
        intro a ha e
        obtain ⟨w, hw, _⟩ := h.complete a.1 a.2 ha
        rw [e, hr] at hw
        cases hw
      refine hstep (assignItem r (rename k) v) ⟨OMap.insertList_asc _ _ _ _ h.asc, ?_, ?_⟩
        (fun a ha e => absurd e (hnone a ha))
      · intro k' v' hm
        rw [assignItem, assoc_insertList _ _ _ _ h.asc]
        rcases List.mem_append.mp hm with hm | hm
        · rw [if_neg (hnone _ hm)]
          exact h.complete k' v' hm
        · obtain ⟨rfl, rfl⟩ := Prod.mk.injEq _ _ _ _ ▸ List.mem_singleton.mp hm
          rw [if_pos rfl, hr]
          exact ⟨_, rfl, rfl⟩
      · intro x w hw
        rw [assignItem, assoc_insertList _ _ _ _ h.asc] at hw
        by_cases hx : x = rename k
        · rw [if_pos hx, hr] at hw
          cases hw
          exact ⟨k, by simp, hx.symm⟩
        · rw [if_neg hx] at hw
          obtain ⟨k', h1, h2⟩ := h.sound x w hw
          exact ⟨k', by simp [h1], h2⟩
    | some w =>
      obtain ⟨k0, hk0, e0⟩ := h.sound _ _ hr
      by_cases hcond : (same O w v && v.cacheable) = true
      · simp only [if_pos hcond]
        simp only [Bool.and_eq_true, same, beq_iff_eq] at hcond
        have hall : ∀ a ∈ pre, rename a.1 = rename k → O.hash a.2 = O.hash v ∧ v.cacheable = true := by
          intro a ha e
          obtain ⟨w', hw', hh⟩ := h.complete a.1 a.2 ha
          rw [e, hr] at hw'
          cases hw'
          exact ⟨hh.symm.trans hcond.1, hcond.2⟩
        refine hstep _ ?_ hall
        cases flat with
        | false =>
          simp only [Bool.false_eq_true, if_false]
          refine ⟨h.asc, ?_, ?_⟩
          · intro k' v' hm
            rcases List.mem_append.mp hm with hm | hm
            · exact h.complete k' v' hm
            · obtain ⟨rfl, rfl⟩ := Prod.mk.injEq _ _ _ _ ▸ List.mem_singleton.mp hm
              exact ⟨w, hr, hcond.1⟩
          · intro x w' hw'
            obtain ⟨k', h1, h2⟩ := h.sound x w' hw'
            exact ⟨k', by simp [h1], h2⟩
        | true =>
          simp only [if_true]
          refine ⟨OMap.insertList_asc _ _ _ _ h.asc, ?_, ?_⟩
          · intro k' v' hm
            rw [assignItem, assoc_insertList _ _ _ _ h.asc, hr]
            rcases List.mem_append.mp hm with hm | hm
            · by_cases e : rename k' = rename k
              · rw [if_pos e]
                exact ⟨v, rfl, ((hall _ hm e).1).symm⟩
              · rw [if_neg e]
                exact h.complete k' v' hm
            · obtain ⟨rfl, rfl⟩ := Prod.mk.injEq _ _ _ _ ▸ List.mem_singleton.mp hm
              rw [if_pos rfl]
              exact ⟨_, rfl, rfl⟩
          · intro x w' hw'
            rw [assignItem, assoc_insertList _ _ _ _ h.asc, hr] at hw'
            by_cases hx : x = rename k
            · rw [if_pos hx] at hw'
              cases hw'
              exact ⟨k, by simp, hx.symm⟩
            · rw [if_neg hx] at hw'
              obtain ⟨k', h1, h2⟩ := h.sound x w' hw'
              exact ⟨k', by simp [h1], h2⟩
      · simp only [if_neg hcond]
        refine Or.inl ⟨trivial, fun ⟨_, h4⟩ => hcond ?_⟩
        have := h4 (k0, w) hk0 (k, v) (by simp) e0
        simp [same, this.1, this.2]

theorem staged_nil (O : Ops N A) (rename : Str → Str) : Staged O rename [] [] :=
  ⟨List.Pairwise.nil, by simp, by intro x w h; simp [assoc] at h⟩

/-- Outcome of staging: success if and only if there is no conflict. -/
theorem stageItems_outcome (O : Ops N A) (flat : Bool) (rename : Str → Str) (old : Items N A) :
    (stageItems O flat rename old [] = .fail ∧ ¬ NoConflict O rename old) ∨
    ∃ r, stageItems O flat rename old [] = .ok r ∧ Staged O rename old r ∧ NoConflict O rename old := by
  rcases stageItems_spec O flat rename old [] [] (staged_nil O rename) with ⟨h1, h2⟩ | ⟨r, h1, h2, h3, _⟩
  · exact Or.inl ⟨h1, fun h => h2 ⟨h, by simp⟩⟩
  · exact Or.inr ⟨r, h1, by simpa using h2, h3⟩

theorem unstageItems_eq (O : Ops N A) (sub : Str) : ∀ (t r : Items N A),
    unstageItems O sub t r = stageItems O false (fun k => toNormalPath (lexRelative k sub))
      (t.filter (fun kv => nonUpwards (toNormalPath (lexRelative kv.1 sub)) = .val true)) r := by
  intro t
  induction t with
  | nil => intro r; rfl
  | cons kv t ih =>
    intro r
    obtain ⟨k, v⟩ := kv
    simp only [unstageItems, List.filter_cons]
    by_cases hc : nonUpwards (toNormalPath (lexRelative k sub)) = .val true
    · simp only [hc, if_true, decide_true]
      unfold stageItems
      cases assoc (toNormalPath (lexRelative k sub)) r with
      | none => exact ih _
      | some w =>
        simp only [Bool.false_eq_true, if_false]
        split
        · exact ih _
        · rfl
    · rw [if_neg hc, if_neg (by simpa using hc)]
      exact ih r

/-! ## C60: `to_subdir` -/

/-- Entry `(k, v)` has to be placed at `target k`; entries meeting at one place are equal and
cacheable. -/
def Compatible (O : Ops N A) (target : Str → Place) (old : Items N A) : Prop :=
  old.Pairwise (fun a b => target a.1 = target b.1 → O.hash a.2 = O.hash b.2 ∧ b.2.cacheable = true)

/-- `new` contains exactly the entries of `old`, each one at its place. -/
structure PlacedAt (O : Ops N A) (target : Str → Place) (old new : Items N A) : Prop where
  asc : Ascending new
  normal : ∀ x w, (x, w) ∈ new → toNormalPath x = x
  complete : ∀ k v, (k, v) ∈ old → ∃ x w, (x, w) ∈ new ∧ place x = target k ∧ O.hash w = O.hash v
  sound : ∀ x w, (x, w) ∈ new → ∃ k, (k, w) ∈ old ∧ place x = target k

theorem compatible_iff (O : Ops N A) {path : Str → Str} {target : Str → Place}
    (h : ∀ k, place (path k) = target k) (old : Items N A) :
    Compatible O target old ↔ NoConflict O (fun k => toNormalPath (path k)) old := by
  unfold Compatible NoConflict
  simp only [C39_canonical, h]

theorem placedAt_of_staged {O : Ops N A} {path : Str → Str} {target : Str → Place}
    (h : ∀ k, place (path k) = target k) {old new : Items N A}
    (hs : Staged O (fun k => toNormalPath (path k)) old new) : PlacedAt O target old new := by
  have hplace : ∀ k, place (toNormalPath (path k)) = target k := fun k => by rw [C39_location, h]
  refine ⟨hs.asc, fun x w hx => ?_, fun k v hk => ?_, fun x w hx => ?_⟩
  · obtain ⟨k, _, rfl⟩ := hs.sound x w (assoc_of_mem hs.asc hx)
    exact C39_idempotent _
  · obtain ⟨w, h1, h2⟩ := hs.complete k v hk
    exact ⟨_, w, assoc_some_mem h1, hplace k, h2⟩
  · obtain ⟨k, h1, rfl⟩ := hs.sound x w (assoc_of_mem hs.asc hx)
    exact ⟨k, h1, hplace k⟩

/-- Three evaluated arguments. -/
theorem evals_of_three (O : Ops N A) (f : Fn N A) {m : Items N A} {ty : Str} {c : Construct N A}
    {e1 e2 e3 v1 v2 v3 : Val N A} {r : Res (Val N A)} (ρ : Env N A)
    (ht : assoc "type".toList m = some (.str ty))
    (hcall : ty ≠ "CALL_EXPRESSION".toList) (hp : O.provided ty = none)
    (hc : assoc ty (builtIns O) = some c)
    (h1 : Evals O f e1 ρ (.ok v1)) (h2 : Evals O f e2 ρ (.ok v2)) (h3 : Evals O f e3 ρ (.ok v3))
    (h : ∀ ev : Ev N A, ev e1 ρ = .ok v1 → ev e2 ρ = .ok v2 → ev e3 ρ = .ok v3 → c ev m ρ = r) :
    Evals O f (.map m) ρ r := by
  obtain ⟨n1, h1⟩ := h1
  obtain ⟨n2, h2⟩ := h2
  obtain ⟨n3, h3⟩ := h3
  refine ⟨n1 + n2 + n3 + 1, fun k hk => ?_⟩
  obtain ⟨j, rfl⟩ : ∃ j, k = j + 1 := ⟨k - 1, by omega⟩
  rw [eval_builtIn O f j ρ ht hcall hp hc]
  exact h _ (h1 j (by omega)) (h2 j (by omega)) (h3 j (by omega))

/-- The place an entry is to be staged at. -/
def stagePlace (sub : Str) (flat : Bool) (k : Str) : Place :=
  (place sub).walk (if flat then filename k else k)

/-- C60: `to_subdir` fails if and only if entries meeting at one place are different or not cacheable;
otherwise, its value has exactly the given entries, each one at the place its key denotes from the
sub-directory (for flat staging, the last component of the key). -/
theorem C60_to_subdir (O : Ops N A) (hp : O.provided "to_subdir".toList = none) (f : Fn N A)
    (m : Items N A) (e fv : Val N A) (ρ : Env N A) (d : Items N A) (sub : Str)
    (ht : assoc "type".toList m = some (lit "to_subdir")) (he : assoc "$1".toList m = some e)
    (hd : Evals O f e ρ (.ok (.map d)))
    (hs : Evals O f (get m "subdir" (lit ".")) ρ (.ok (.str sub)))
    (hf : Evals O f (get m "flat" (.bool false)) ρ (.ok fv)) :
    (Evals O f (.map m) ρ .fail ∧ ¬ Compatible O (stagePlace sub (truth O fv)) d) ∨
    ∃ r, Evals O f (.map m) ρ (.ok (.map r)) ∧ PlacedAt O (stagePlace sub (truth O fv)) d r ∧
      Compatible O (stagePlace sub (truth O fv)) d := by
  have hplace : ∀ k, place (append sub (if truth O fv then filename k else k))
      = stagePlace sub (truth O fv) k := fun k => place_append _ _
  have hev : ∀ r, stageItems O (truth O fv)
        (fun k => toNormalPath (append sub (if truth O fv then filename k else k))) d [] = r →
      Evals O f (.map m) ρ (r.bind fun r => .ok (.map r)) := by
    intro r hr
    refine evals_of_three O f (c := toSubdirExpr O) ρ ht (by decide) hp (by rfl) hd hs hf
      (fun ev h1 h2 h3 => ?_)
    simp only [toSubdirExpr, argument, he, Res.ofOption, Res.bind, h1, h2, h3, toSubdir, Val.str?,
      Val.map?, hr]
  rcases stageItems_outcome O (truth O fv)
      (fun k => toNormalPath (append sub (if truth O fv then filename k else k))) d with
    ⟨h1, h2⟩ | ⟨r, h1, h2, h3⟩
  · exact Or.inl ⟨hev _ h1, fun h => h2 ((compatible_iff O hplace d).mp h)⟩
  · exact Or.inr ⟨r, hev _ h1, placedAt_of_staged hplace h2, (compatible_iff O hplace d).mpr h3⟩

/-! ## C61: `from_subdir` -/

/-- The path relative to the sub-directory, if the entry is inside of it. -/
def Inside (sub k : Str) (l : List Str) : Prop :=
  place k = { place sub with down := (place sub).down ++ l }

/-- Sub-directory and keys for which `from_subdir` is correct. -/
def Canonical (sub : Str) (d : Items N A) : Prop :=
  toNormalPath sub = sub ∧ (∃ b, place sub = ⟨false, 0, b⟩) ∧
  ∀ k v, (k, v) ∈ d → toNormalPath k = k ∧ (place k).abs = false

theorem keep_iff {sub k : Str} (hs : toNormalPath sub = sub) {b : List Str}
    (hb : place sub = ⟨false, 0, b⟩) (hk : toNormalPath k = k) (ha : (place k).abs = false) (l : List Str) :
    (nonUpwards (toNormalPath (lexRelative k sub)) = .val true ∧
      place (toNormalPath (lexRelative k sub)) = ⟨false, 0, l⟩) ↔ Inside sub k l := by
  have wfs := wf_place sub
  have wfk := wf_place k
  have es : sub = canon ⟨false, 0, b⟩ := by rw [← hb, ← toNormalPath_eq, hs]
  have ek : k = canon (place k) := by rw [← toNormalPath_eq, hk]
  have as : isAbs sub = false := by rw [es]; exact isAbs_canon (hb ▸ wfs)
  have ak : isAbs k = false := by rw [ek, isAbs_canon wfk]; exact ha
  have hbp : ∀ a ∈ b, ProperName a := by rw [hb] at wfs; exact wfs.1
  have hdd : dotdot ∉ splitAt '/' sub := by
    intro h
    have hn : dotdot ∈ elems sub := by
      rw [elems_rel as]
      exact List.mem_append.mpr (Or.inl (List.mem_filter.mpr ⟨h, rfl⟩))
    rw [es, names_canon_rel 0 b (hb ▸ wfs)] at hn
    split at hn
    · exact absurd hn (by decide)
    · simp only [Place.segs, List.replicate_zero, List.nil_append] at hn
      exact (hbp _ hn).2.2.2 rfl
  rw [C39_location]
  constructor
  · rintro ⟨_, h⟩
    unfold Inside
    exact relative_sound ak as hdd l h
  · intro h
    unfold Inside at h
    rw [hb] at h
    simp only at h
    have hl : ∀ a ∈ l, ProperName a := by
      rw [h] at wfk
      exact fun a ha => wfk.1 a (List.mem_append.mpr (Or.inr ha))
    have hrel : place (lexRelative k sub) = ⟨false, 0, l⟩ := by
      rw [ek, h, es]
      exact relative_complete b l hbp hl
    refine ⟨?_, hrel⟩
    have hw : (⟨false, 0, l⟩ : Place).WF := hrel ▸ wf_place _
    rw [toNormalPath_eq, hrel]
    obtain ⟨x, h1, h2⟩ := nonUpwards_eq (canon ⟨false, 0, l⟩) (canon_ne_nil hw)
    rw [h1, h2.mpr ⟨isAbs_canon hw, by rw [place_canon hw]⟩]

theorem kept_place {sub k : Str} (h : nonUpwards (toNormalPath (lexRelative k sub)) = .val true) :
    ∃ l, place (toNormalPath (lexRelative k sub)) = ⟨false, 0, l⟩ := by
  have hne : toNormalPath (lexRelative k sub) ≠ [] := by
    rw [toNormalPath_eq]; exact canon_ne_nil (wf_place _)
  obtain ⟨x, h1, h2⟩ := nonUpwards_eq _ hne
  rw [h1] at h
  injection h with h
  obtain ⟨h3, h4⟩ := h2.mp h
  refine ⟨(place (toNormalPath (lexRelative k sub))).down, ?_⟩
  rw [place_eq, h3] at h4 ⊢
  obtain ⟨a, u, l, hp⟩ : ∃ a u l,
      (names (toNormalPath (lexRelative k sub))).foldl Place.follow ⟨false, 0, []⟩ = ⟨a, u, l⟩ :=
    ⟨_, _, _, rfl⟩
  have habs : a = false := by
    have : isAbs (toNormalPath (lexRelative k sub)) = a := by
      rw [toNormalPath_eq, isAbs_canon (wf_place _), ← C39_location, place_eq, h3, hp]
    rw [← this, h3]
  rw [hp] at h4 ⊢
  simp only at h4
  rw [h4, habs]

/-- C61 for canonical sub-directories and keys (for others the property does not hold, see
`C61_violation`): `from_subdir` always succeeds, and its value has exactly the entries inside the
sub-directory, each one at its path relative to it. -/
theorem C61_from_subdir_partial (O : Ops N A) (hp : O.provided "from_subdir".toList = none) (f : Fn N A)
    (m : Items N A) (e : Val N A) (ρ : Env N A) (d : Items N A) (sub : Str) (hd : Ascending d)
    (hcan : Canonical sub d)
    (ht : assoc "type".toList m = some (lit "from_subdir")) (he : assoc "$1".toList m = some e)
    (hv : Evals O f e ρ (.ok (.map d)))
    (hs : Evals O f (get m "subdir" (lit ".")) ρ (.ok (.str sub))) :
    ∃ r, Evals O f (.map m) ρ (.ok (.map r)) ∧ Ascending r ∧
      (∀ x w, (x, w) ∈ r → toNormalPath x = x) ∧
      ∀ x w, (x, w) ∈ r ↔ toNormalPath x = x ∧
        ∃ k l, (k, w) ∈ d ∧ Inside sub k l ∧ place x = ⟨false, 0, l⟩ := by
  obtain ⟨hsub, ⟨b, hb⟩, hkeys⟩ := hcan
  obtain ⟨items, hitems⟩ : ∃ items, d.filter (fun kv =>
      nonUpwards (toNormalPath (lexRelative kv.1 sub)) = .val true) = items := ⟨_, rfl⟩
  have hev : ∀ r, stageItems O false (fun k => toNormalPath (lexRelative k sub)) items [] = r →
      Evals O f (.map m) ρ (r.bind fun r => .ok (.map r)) := by
    intro r hr
    refine evals_of_three O f (c := fromSubdirExpr O) ρ ht (by decide) hp (by rfl) hv hs hs
      (fun ev h1 h2 _ => ?_)
    simp only [fromSubdirExpr, argument, he, Res.ofOption, Res.bind, h1, h2, fromSubdir, Val.str?,
      Val.map?, unstageItems_eq, hitems, hr]
  have hmem : ∀ k v, (k, v) ∈ items ↔ (k, v) ∈ d ∧
      nonUpwards (toNormalPath (lexRelative k sub)) = .val true := by
    intro k v
    rw [← hitems, List.mem_filter]
    simp
  have hin : ∀ k v, (k, v) ∈ items → ∃ l, Inside sub k l ∧
      place (toNormalPath (lexRelative k sub)) = ⟨false, 0, l⟩ := by
    intro k v hk
    obtain ⟨h1, h2⟩ := (hmem k v).mp hk
    obtain ⟨l, hl⟩ := kept_place h2
    exact ⟨l, (keep_iff hsub hb (hkeys k v h1).1 (hkeys k v h1).2 l).mp ⟨h2, hl⟩, hl⟩
  have hkeyinj : ∀ k v k' v', (k, v) ∈ items → (k', v') ∈ items →
      toNormalPath (lexRelative k sub) = toNormalPath (lexRelative k' sub) → k = k' := by
    intro k v k' v' hk hk' h
    obtain ⟨l, h1, h2⟩ := hin k v hk
    obtain ⟨l', h1', h2'⟩ := hin k' v' hk'
    have hll : l = l' := by
      rw [h] at h2
      have := h2.symm.trans h2'
      simpa using this
    subst hll
    have hpl : place k = place k' := h1.trans h1'.symm
    rw [← (hkeys k v ((hmem k v).mp hk).1).1, ← (hkeys k' v' ((hmem k' v').mp hk').1).1]
    exact (C39_canonical k k').mpr hpl
  have hnc : NoConflict O (fun k => toNormalPath (lexRelative k sub)) items := by
    have hasc : items.Pairwise (fun a b => a.1 < b.1) := by
      rw [← hitems]
      exact List.Pairwise.filter _ hd
    unfold NoConflict
    refine List.Pairwise.imp_of_mem ?_ hasc
    intro a b ha hb' hlt hab
    exact absurd (hkeyinj a.1 a.2 b.1 b.2 ha hb' hab) (ne_of_lt hlt)
  rcases stageItems_outcome O false (fun k => toNormalPath (lexRelative k sub)) items with
    ⟨_, h⟩ | ⟨r, h1, h2, _⟩
  · exact absurd hnc h
  · have hnorm : ∀ x w, (x, w) ∈ r → toNormalPath x = x := by
      intro x w hx
      obtain ⟨k, _, rfl⟩ := h2.sound x w (assoc_of_mem h2.asc hx)
      exact C39_idempotent _
    refine ⟨r, hev _ h1, h2.asc, hnorm, fun x w => ⟨fun hx => ⟨hnorm x w hx, ?_⟩, ?_⟩⟩
    · obtain ⟨k, hk, rfl⟩ := h2.sound x w (assoc_of_mem h2.asc hx)
      obtain ⟨l, h3, h4⟩ := hin k w hk
      exact ⟨k, l, ((hmem k w).mp hk).1, h3, h4⟩
    · rintro ⟨hx, k, l, hk, h3, h4⟩
      obtain ⟨h5, h6⟩ := (keep_iff hsub hb (hkeys k w hk).1 (hkeys k w hk).2 l).mpr h3
      have hki : (k, w) ∈ items := (hmem k w).mpr ⟨hk, h5⟩
      have hxe : x = toNormalPath (lexRelative k sub) := by
        rw [← hx, ← C39_idempotent (lexRelative k sub)]
        exact (C39_canonical _ _).mpr (by rw [h4, h6])
      obtain ⟨w', h7, _⟩ := h2.complete k w hki
      obtain ⟨k', h8, h9⟩ := h2.sound _ _ h7
      have := hkeyinj k' w' k w h8 hki h9
      subst this
      have hww : w' = w := by
        have e1 := assoc_of_mem hd ((hmem _ _).mp h8).1
        rw [assoc_of_mem hd hk] at e1
        simpa using e1.symm
      rw [hxe, ← hww]
      exact assoc_some_mem h7

theorem walk_inside {sub k : Str} (hk : isAbs k = false) {l : List Str} (hl : place k = ⟨false, 0, l⟩) :
    (place sub).walk k = { place sub with down := (place sub).down ++ l } := by
  rw [walk_rel _ hk]
  rw [place_rel hk] at hl
  exact foldl_below _ l hl _

/-- C61: staging a map of canonical paths to a canonical sub-directory, and taking the content of that
sub-directory gives the map back. -/
theorem C61_inverse_partial (O : Ops N A) (hp : O.provided "from_subdir".toList = none)
    (hp' : O.provided "to_subdir".toList = none) (f : Fn N A)
    (m m' : Items N A) (e : Val N A) (ρ : Env N A) (d : Items N A) (sub : Str) (hd : Ascending d)
    (hsub : toNormalPath sub = sub) (hb : ∃ b, place sub = ⟨false, 0, b⟩)
    (hkeys : ∀ k v, (k, v) ∈ d → toNormalPath k = k ∧ ∃ l, place k = ⟨false, 0, l⟩)
    (ht : assoc "type".toList m = some (lit "from_subdir"))
    (he : assoc "$1".toList m = some (.map m'))
    (ht' : assoc "type".toList m' = some (lit "to_subdir")) (he' : assoc "$1".toList m' = some e)
    (hflat : assoc "flat".toList m' = none)
    (hv : Evals O f e ρ (.ok (.map d)))
    (hs : Evals O f (get m "subdir" (lit ".")) ρ (.ok (.str sub)))
    (hs' : Evals O f (get m' "subdir" (lit ".")) ρ (.ok (.str sub))) :
    Evals O f (.map m) ρ (.ok (.map d)) := by
  have hf : Evals O f (get m' "flat" (.bool false)) ρ (.ok (.bool false)) := by
    refine ⟨1, fun k hk => ?_⟩
    obtain ⟨j, rfl⟩ : ∃ j, k = j + 1 := ⟨k - 1, by omega⟩
    simp only [get, hflat, Option.getD_none, eval]
  have hrel : ∀ k v, (k, v) ∈ d → isAbs k = false := by
    intro k v hk
    obtain ⟨h1, l, h2⟩ := hkeys k v hk
    rw [← h1, toNormalPath_eq, isAbs_canon (wf_place _), h2]
  have htarget : ∀ k v l, (k, v) ∈ d → place k = ⟨false, 0, l⟩ →
      stagePlace sub (truth O (.bool false)) k = { place sub with down := (place sub).down ++ l } :=
    fun k v l hk hl => walk_inside (hrel k v hk) hl
  have hcompat : Compatible O (stagePlace sub (truth O (.bool false))) d := by
    refine List.Pairwise.imp_of_mem ?_ hd
    intro a b ha hb' hlt hab
    exfalso
    obtain ⟨h1, l, h2⟩ := hkeys a.1 a.2 ha
    obtain ⟨h1', l', h2'⟩ := hkeys b.1 b.2 hb'
    rw [htarget _ _ _ ha h2, htarget _ _ _ hb' h2'] at hab
    have : l = l' := by simpa using hab
    subst this
    have : a.1 = b.1 := by
      rw [← h1, ← h1']
      exact (C39_canonical _ _).mpr (h2.trans h2'.symm)
    exact absurd this (ne_of_lt hlt)
  rcases C60_to_subdir O hp' f m' e (.bool false) ρ d sub ht' he' hv hs' hf with
    ⟨_, h⟩ | ⟨r, h1, h2, _⟩
  · exact absurd hcompat h
  · have hcan : Canonical sub r := by
      refine ⟨hsub, hb, fun x w hx => ⟨h2.normal x w hx, ?_⟩⟩
      obtain ⟨k, hk, hpl⟩ := h2.sound x w hx
      obtain ⟨_, l, hl⟩ := hkeys k w hk
      obtain ⟨b, hb⟩ := hb
      rw [hpl, htarget k w l hk hl, hb]
    obtain ⟨r2, h3, h4, _, h5⟩ :=
      C61_from_subdir_partial O hp f m (.map m') ρ r sub h2.asc hcan ht he h1 hs
    have : r2 = d := by
      refine ascending_ext h4 hd (fun x => ?_)
      have key : ∀ w, assoc x r2 = some w ↔ assoc x d = some w := by
        intro w
        rw [assoc_eq_some_iff h4, assoc_eq_some_iff hd, h5]
        constructor
        · rintro ⟨hx, k, l, hk, hin, hpl⟩
          obtain ⟨k0, hk0, hpl0⟩ := h2.sound k w hk
          obtain ⟨hn0, l0, hl0⟩ := hkeys k0 w hk0
          rw [htarget k0 w l0 hk0 hl0] at hpl0
          have : l = l0 := by
            have := hin.symm.trans hpl0
            simpa using this
          subst this
          have : x = k0 := by
            rw [← hx, ← hn0]
            exact (C39_canonical _ _).mpr (hpl.trans hl0.symm)
          rw [this]
          exact hk0
        · intro hx
          obtain ⟨hn, l, hl⟩ := hkeys x w hx
          obtain ⟨y, w', hy, hpl, _⟩ := h2.complete x w hx
          obtain ⟨k0, hk0, hpl0⟩ := h2.sound y w' hy
          obtain ⟨hn0, l0, hl0⟩ := hkeys k0 w' hk0
          rw [htarget x w l hx hl] at hpl
          rw [htarget k0 w' l0 hk0 hl0] at hpl0
          have : l = l0 := by
            have := hpl.symm.trans hpl0
            simpa using this
          subst this
          have : k0 = x := by
            rw [← hn, ← hn0]
            exact (C39_canonical _ _).mpr (hl0.trans hl.symm)
          subst this
          have hww : w' = w := by
            have e1 := assoc_of_mem hd hk0
            rw [assoc_of_mem hd hx] at e1
            simpa using e1.symm
          subst hww
          exact ⟨hn, y, l, hy, hpl, hl⟩
      cases h : assoc x r2 with
      | some w => exact ((key w).mp h).symm
      | none =>
        cases h' : assoc x d with
        | none => rfl
        | some w => rw [(key w).mpr h'] at h; cases h
    rw [← this]
    exact h3

/-- C61 does not hold: with sub-directory `./foo`, the entry `foo/x` is dropped; with sub-directory
`foo`, the entry `a/../foo/x` is dropped, and the entry `/x`, not being inside, is kept (as `.`). -/
theorem C61_violation (O : Ops N A) (v : Val N A) :
    (Inside "./foo".toList "foo/x".toList ["x".toList] ∧
      fromSubdir O (.map [("foo/x".toList, v)]) (lit "./foo") = .ok (.map [])) ∧
    (Inside "foo".toList "a/../foo/x".toList ["x".toList] ∧
      fromSubdir O (.map [("a/../foo/x".toList, v)]) (lit "foo") = .ok (.map [])) ∧
    ((∀ l, ¬ Inside "foo".toList "/x".toList l) ∧
      fromSubdir O (.map [("/x".toList, v)]) (lit "foo") = .ok (.map [(".".toList, v)])) := by
  refine ⟨⟨?_, ?_⟩, ⟨?_, ?_⟩, ⟨?_, ?_⟩⟩
  · unfold Inside; decide
  · rfl
  · unfold Inside; decide
  · rfl
  · intro l h
    have : (place "/x".toList).abs = (place "foo".toList).abs := by rw [h]
    exact absurd this (by decide)
  · rfl

theorem evals_str (f : Fn Nat Unit) (s : Str) (ρ : Env Nat Unit) :
    Evals demoOps f (.str s) ρ (.ok (.str s)) := by
  refine ⟨1, fun k hk => ?_⟩
  obtain ⟨j, rfl⟩ : ∃ j, k = j + 1 := ⟨k - 1, by omega⟩
  rfl

theorem evals_bool (f : Fn Nat Unit) (b : Bool) (ρ : Env Nat Unit) :
    Evals demoOps f (.bool b) ρ (.ok (.bool b)) := by
  refine ⟨1, fun k hk => ?_⟩
  obtain ⟨j, rfl⟩ : ∃ j, k = j + 1 := ⟨k - 1, by omega⟩
  rfl

/-- Different entries meeting at `d/x`: staging fails. -/
example (ρ : Env Nat Unit) : Evals demoOps (demoFn .none)
    (.map [("$1".toList, quoted (.map [("a/../x".toList, .num 1), ("x".toList, .num 2)])),
      ("subdir".toList, lit "d"), ("type".toList, lit "to_subdir")]) ρ .fail := by
  rcases C60_to_subdir demoOps rfl (demoFn .none)
      [("$1".toList, quoted (.map [("a/../x".toList, .num 1), ("x".toList, .num 2)])),
        ("subdir".toList, lit "d"), ("type".toList, lit "to_subdir")] _ (.bool false) ρ
      [("a/../x".toList, .num 1), ("x".toList, .num 2)] "d".toList (by rfl) (by rfl)
      (evals_quoted _ _ _) (evals_str _ _ _) (evals_bool _ _ _) with h | ⟨_, _, _, h⟩
  · exact h.1
  · have := (List.pairwise_cons.mp h).1 ("x".toList, .num 2) (by simp) (by decide)
    exact absurd this.1 (by decide)

/-- Entries at different places. -/
example (ρ : Env Nat Unit) : Evals demoOps (demoFn .none)
    (.map [("$1".toList, .map [("$1".toList, quoted (.map [("a/b".toList, .num 1), ("x".toList, .num 2)])),
        ("subdir".toList, lit "d"), ("type".toList, lit "to_subdir")]),
      ("subdir".toList, lit "d"), ("type".toList, lit "from_subdir")]) ρ
    (.ok (.map [("a/b".toList, .num 1), ("x".toList, .num 2)])) := by
  refine C61_inverse_partial demoOps rfl rfl _ _ _ _ ρ [("a/b".toList, .num 1), ("x".toList, .num 2)]
    "d".toList (by unfold Ascending; simp; decide) (by decide) ⟨_, rfl⟩ (fun k v hk => ?_) (by rfl) (by rfl) (by rfl) (by rfl)
    (by rfl) (evals_quoted _ _ _) (evals_str _ _ _) (evals_str _ _ _)
  simp only [List.mem_cons, Prod.mk.injEq, List.not_mem_nil, or_false] at hk
  rcases hk with ⟨rfl, rfl⟩ | ⟨rfl, rfl⟩
  · exact ⟨by decide, _, rfl⟩
  · exact ⟨by decide, _, rfl⟩

example (ρ : Env Nat Unit) : ∃ r, Evals demoOps (demoFn .none)
    (.map [("$1".toList, quoted (.map [("d/a".toList, .num 1), ("x".toList, .num 2)])),
        ("subdir".toList, lit "d"), ("type".toList, lit "from_subdir")]) ρ (.ok (.map r)) ∧
    ("a".toList, .num 1) ∈ r := by
  obtain ⟨r, h1, _, _, h2⟩ := C61_from_subdir_partial demoOps rfl (demoFn .none)
    [("$1".toList, quoted (.map [("d/a".toList, .num 1), ("x".toList, .num 2)])),
        ("subdir".toList, lit "d"), ("type".toList, lit "from_subdir")] _ ρ
    [("d/a".toList, .num 1), ("x".toList, .num 2)] "d".toList (by unfold Ascending; simp; decide)
    ⟨by decide, ⟨_, rfl⟩, fun k v hk => by
      simp only [List.mem_cons, Prod.mk.injEq, List.not_mem_nil, or_false] at hk
      rcases hk with ⟨rfl, rfl⟩ | ⟨rfl, rfl⟩
      · exact ⟨by decide, by decide⟩
      · exact ⟨by decide, by decide⟩⟩ (by rfl) (by rfl) (evals_quoted _ _ _) (evals_str _ _ _)
  refine ⟨r, h1, (h2 _ _).mpr ⟨by decide, "d/a".toList, ["a".toList], by simp, ?_, by decide⟩⟩
  unfold Inside
  decide

end Verif.Expr
