import Verif.Dump.Targets

/-!
# The dump of targets: properties

C119.
-/

namespace Verif.Dump

open Json

variable {N : Type}

/-- What is found in a JSON value by following keys of objects. -/
def lookAt : List Str → Json N → Option (Json N)
  | [], j => some j
  | k :: p, obj l => (assoc k l).bind (lookAt p)
  | _ :: _, _ => none

/-- The array found, if there is one. -/
def arrAt (p : List Str) (j : Json N) : List (Json N) :=
  match lookAt p j with
  | some (arr l) => l
  | _ => []

/-- Objects nested to a certain depth, with arrays that are not empty in them. -/
def Shape : Nat → Json N → Prop
  | 0, j => ∃ l, j = arr l ∧ l ≠ []
  | n + 1, j => ∃ l, j = obj l ∧ Ascending l ∧ ∀ k v, assoc k l = some v → Shape n v

theorem arrAt_cons (k : Str) (p : List Str) (l : List (Str × Json N)) :
    arrAt (k :: p) (obj l) = match assoc k l with
      | some v => arrAt p v
      | none => [] := by
  unfold arrAt
  rw [lookAt]
  cases assoc k l <;> rfl

theorem arrAt_nil_obj (l : List (Str × Json N)) : arrAt [] (obj l) = [] := rfl

theorem ascending_one (k : Str) (v : Json N) : Ascending [(k, v)] := by simp [Ascending]

theorem push_null (c : Json N) : ∀ p : List Str, ∃ j', pushAt c p null = some j' ∧
    Shape p.length j' ∧ ∀ q, arrAt q j' = if q = p then [c] else []
  | [] => by
    refine ⟨arr [c], by rw [pushAt], ⟨[c], rfl, by simp⟩, fun q => ?_⟩
    cases q with
    | nil => rfl
    | cons k q => rfl
  | k :: p => by
    obtain ⟨v, h1, h2, h3⟩ := push_null c p
    refine ⟨obj [(k, v)], by rw [pushAt, h1]; rfl, ⟨_, rfl, ascending_one k v, ?_⟩, ?_⟩
    · intro k' v' h
      rw [assoc] at h
      split at h
      · cases h; exact h2
      · cases h
    · intro q
      cases q with
      | nil => rfl
      | cons k' q =>
        rw [arrAt_cons, assoc]
        by_cases hk : k' = k
        · subst hk
          rw [if_pos rfl]
          simp only [h3 q, List.cons.injEq, true_and]
        · rw [if_neg hk, if_neg (by simp [hk])]
          rfl

/-- The value put below a key. -/
theorem push_key {c : Json N} {k : Str} {p : List Str} {l : List (Str × Json N)} {v : Json N}
    (hl : Ascending l) (h : ∀ q, arrAt q v =
      (match assoc k l with
        | some o => arrAt q o
        | none => []) ++ if q = p then [c] else []) (q : List Str) :
    arrAt q (obj (OMap.insertList (fun _ new => new) k v l)) =
      arrAt q (obj l) ++ if q = k :: p then [c] else [] := by
  cases q with
  | nil => rfl
  | cons k' q =>
    rw [arrAt_cons, arrAt_cons, assoc_insertList _ _ _ _ hl]
    by_cases hk : k' = k
    · subst hk
      rw [if_pos rfl]
      have hq := h q
      simp only [List.cons.injEq, true_and]
      cases e : assoc k' l <;> rw [e] at hq <;> exact hq
    · rw [if_neg hk, if_neg (by simp [hk]), List.append_nil]

theorem assoc_put {k k' : Str} {l : List (Str × Json N)} {v v' : Json N} (hl : Ascending l)
    (h : assoc k' (OMap.insertList (fun _ new => new) k v l) = some v') :
    (k' = k ∧ v' = v) ∨ assoc k' l = some v' := by
  rw [assoc_insertList _ _ _ _ hl] at h
  split at h
  · rename_i hk
    refine Or.inl ⟨hk, ?_⟩
    cases e : assoc k l <;> rw [e] at h <;> cases h <;> rfl
  · exact Or.inr h

theorem push_shape (c : Json N) : ∀ (p : List Str) (j : Json N), Shape p.length j →
    ∃ j', pushAt c p j = some j' ∧ Shape p.length j' ∧
      ∀ q, arrAt q j' = arrAt q j ++ if q = p then [c] else []
  | [], j, h => by
    obtain ⟨l, rfl, hl⟩ := h
    refine ⟨arr (l ++ [c]), by rw [pushAt], ⟨_, rfl, by simp⟩, fun q => ?_⟩
    cases q with
    | nil => rfl
    | cons k q => rfl
  | k :: p, j, h => by
    obtain ⟨l, rfl, hl, hs⟩ := h
    cases e : assoc k l with
    | none =>
      obtain ⟨v, h1, h2, h3⟩ := push_null c p
      refine ⟨_, by rw [pushAt, e, Option.getD_none, h1]; rfl,
        ⟨_, rfl, OMap.insertList_asc _ _ _ _ hl, ?_⟩, push_key hl ?_⟩
      · intro k' v' h
        rcases assoc_put hl h with ⟨_, rfl⟩ | h
        · exact h2
        · exact hs _ _ h
      · intro q
        rw [e, h3 q]
        rfl
    | some o =>
      obtain ⟨v, h1, h2, h3⟩ := push_shape c p o (hs _ _ e)
      refine ⟨_, by rw [pushAt, e, Option.getD_some, h1]; rfl,
        ⟨_, rfl, OMap.insertList_asc _ _ _ _ hl, ?_⟩, push_key hl ?_⟩
      · intro k' v' h
        rcases assoc_put hl h with ⟨_, rfl⟩ | h
        · exact h2
        · exact hs _ _ h
      · intro q
        rw [e, h3 q]

/-- Depth of the objects below the two markers. -/
def below (k : Str) : Nat := if k = ['@'] then 3 else 2

/-- The whole dump. -/
def Top (j : Json N) : Prop :=
  ∃ l, j = obj l ∧ Ascending l ∧ ∀ k v, assoc k l = some v → Shape (below k) v

theorem push_top (c : Json N) (t : TargetRef) {j : Json N} (h : Top j) :
    ∃ j', pushAt c t.place j = some j' ∧ Top j' ∧
      ∀ q, arrAt q j' = arrAt q j ++ if q = t.place then [c] else [] := by
  obtain ⟨k, p, e, hp⟩ : ∃ k p, t.place = k :: p ∧ p.length = below k := by
    cases t with
    | named r m n x => exact ⟨_, _, rfl, rfl⟩
    | anonymous r n => exact ⟨_, _, rfl, rfl⟩
  obtain ⟨l, rfl, hl, hs⟩ := h
  rw [e]
  have key : ∃ v, pushAt c p ((assoc k l).getD null) = some v ∧ Shape p.length v ∧
      ∀ q, arrAt q v = (match assoc k l with
        | some o => arrAt q o
        | none => []) ++ if q = p then [c] else [] := by
    cases e : assoc k l with
    | none =>
      obtain ⟨v, h1, h2, h3⟩ := push_null c p
      exact ⟨v, h1, h2, fun q => by rw [h3 q]; rfl⟩
    | some o => exact push_shape c p o (by rw [hp]; exact hs _ _ e)
  obtain ⟨v, h1, h2, h3⟩ := key
  refine ⟨_, by rw [pushAt, h1]; rfl, ⟨_, rfl, OMap.insertList_asc _ _ _ _ hl, ?_⟩, push_key hl h3⟩
  intro k' v' h
  rcases assoc_put hl h with ⟨rfl, rfl⟩ | h
  · rw [← hp]; exact h2
  · exact hs _ _ h

theorem pushTargets_spec : ∀ (ts : List (TargetRef × Json N)) (j : Json N), Top j →
    ∃ j', pushTargets ts j = some j' ∧ Top j' ∧ ∀ q, arrAt q j' =
      arrAt q j ++ (ts.filter fun x => x.1.shown && x.1.place == q).map Prod.snd
  | [], j, h => ⟨j, by rw [pushTargets], h, fun q => by simp⟩
  | (t, c) :: r, j, h => by
    rw [pushTargets]
    by_cases ht : t.shown = true
    · obtain ⟨j1, h1, h2, h3⟩ := push_top c t h
      obtain ⟨j2, h4, h5, h6⟩ := pushTargets_spec r j1 h2
      refine ⟨j2, by rw [if_pos ht, h1]; exact h4, h5, fun q => ?_⟩
      rw [h6 q, h3 q, List.filter_cons, List.append_assoc]
      by_cases hq : q = t.place
      · subst hq
        simp [ht]
      · simp [ht, hq, Ne.symm hq]
    · obtain ⟨j2, h4, h5, h6⟩ := pushTargets_spec r j h
      refine ⟨j2, by rw [if_neg ht]; exact h4, h5, fun q => ?_⟩
      rw [h6 q, List.filter_cons]
      simp [ht]

theorem shape_full : ∀ {n : Nat} {p : List Str} {j : Json N} {l : List (Json N)}, Shape n j →
    lookAt p j = some (arr l) → l ≠ []
  | 0, [], j, l, h, e => by
    obtain ⟨l', rfl, hl⟩ := h
    rw [lookAt] at e
    cases e
    exact hl
  | 0, k :: p, j, l, h, e => by
    obtain ⟨l', rfl, hl⟩ := h
    rw [lookAt] at e
    · cases e
    · intro _ h; cases h
  | n + 1, [], j, l, h, e => by
    obtain ⟨l', rfl, _⟩ := h
    rw [lookAt] at e
    cases e
  | n + 1, k :: p, j, l, h, e => by
    obtain ⟨l', rfl, _, hs⟩ := h
    rw [lookAt] at e
    cases ek : assoc k l' with
    | none => rw [ek] at e; cases e
    | some v =>
      rw [ek] at e
      exact shape_full (hs _ _ ek) e

theorem top_full {p : List Str} {j : Json N} {l : List (Json N)} (h : Top j)
    (e : lookAt p j = some (arr l)) : l ≠ [] := by
  obtain ⟨l', rfl, _, hs⟩ := h
  cases p with
  | nil => rw [lookAt] at e; cases e
  | cons k p =>
    rw [lookAt] at e
    cases ek : assoc k l' with
    | none => rw [ek] at e; cases e
    | some v =>
      rw [ek] at e
      exact shape_full (hs _ _ ek) e

/-- C119: the dump of targets is always written. The lists in it are exactly the following: for each place
of a target analysed, the configurations of all targets with this place, in the order of the targets. -/
theorem C119_targets (ts : List (TargetRef × Json N)) :
    ∃ j, dumpTargets ts = some j ∧ ∀ (p : List Str) (l : List (Json N)),
      lookAt p j = some (arr l) ↔
        l ≠ [] ∧ l = (ts.filter fun x => x.1.shown && x.1.place == p).map Prod.snd := by
  obtain ⟨j, h1, h2, h3⟩ := pushTargets_spec ts (obj []) ⟨[], rfl, List.Pairwise.nil, fun k v h => by cases h⟩
  refine ⟨j, h1, fun p l => ⟨fun h => ⟨top_full h2 h, ?_⟩, ?_⟩⟩
  · have := h3 p
    unfold arrAt at this
    rw [h] at this
    have e : lookAt p (obj ([] : List (Str × Json N))) = some (obj []) ∨ lookAt p (obj ([] : List (Str × Json N))) = none := by
      cases p with
      | nil => exact Or.inl rfl
      | cons k p => exact Or.inr rfl
    rcases e with e | e <;> rw [e] at this <;> exact this
  · rintro ⟨hl, e⟩
    have h4 := h3 p
    have h5 : arrAt p (obj ([] : List (Str × Json N))) = [] := by
      cases p with
      | nil => rfl
      | cons k p => rfl
    rw [h5, List.nil_append, ← e] at h4
    unfold arrAt at h4
    split at h4
    · rename_i l' e'
      rw [e', h4]
    · exact absurd h4.symm hl

/-- C119: a configuration is shown for a target just if this target was analysed in it. -/
theorem C119_shown {ts : List (TargetRef × Json N)} {j : Json N} (h : dumpTargets ts = some j)
    (r m n : Str) (c : Json N) :
    (∃ l, lookAt [['@'], r, m, n] j = some (arr l) ∧ c ∈ l) ↔
      (TargetRef.named r m n true, c) ∈ ts := by
  obtain ⟨j', h', hj⟩ := C119_targets ts
  rw [h] at h'
  cases h'
  constructor
  · rintro ⟨l, hl, hc⟩
    obtain ⟨_, rfl⟩ := (hj _ _).mp hl
    obtain ⟨⟨t, c'⟩, hx, rfl⟩ := List.mem_map.mp hc
    obtain ⟨hy, hp⟩ := List.mem_filter.mp hx
    cases t with
    | named r' m' n' x =>
      simp [TargetRef.shown, TargetRef.place] at hp
      obtain ⟨rfl, rfl, rfl, rfl⟩ := hp
      exact hy
    | anonymous r' n' => simp [TargetRef.shown, TargetRef.place] at hp
  · intro hx
    have hm : c ∈ (ts.filter fun x => x.1.shown && x.1.place == [['@'], r, m, n]).map Prod.snd :=
      List.mem_map.mpr ⟨_, List.mem_filter.mpr ⟨hx, by simp [TargetRef.shown, TargetRef.place]⟩, rfl⟩
    exact ⟨_, (hj _ _).mpr ⟨fun e => (List.not_mem_nil (e ▸ hm)).elim, rfl⟩, hm⟩

/-- C119: the same for anonymous targets. -/
theorem C119_anonymous {ts : List (TargetRef × Json N)} {j : Json N} (h : dumpTargets ts = some j)
    (r n : Str) (c : Json N) :
    (∃ l, lookAt [['#'], r, n] j = some (arr l) ∧ c ∈ l) ↔ (TargetRef.anonymous r n, c) ∈ ts := by
  obtain ⟨j', h', hj⟩ := C119_targets ts
  rw [h] at h'
  cases h'
  constructor
  · rintro ⟨l, hl, hc⟩
    obtain ⟨_, rfl⟩ := (hj _ _).mp hl
    obtain ⟨⟨t, c'⟩, hx, rfl⟩ := List.mem_map.mp hc
    obtain ⟨hy, hp⟩ := List.mem_filter.mp hx
    cases t with
    | named r' m' n' x => simp [TargetRef.shown, TargetRef.place] at hp
    | anonymous r' n' =>
      simp [TargetRef.shown, TargetRef.place] at hp
      obtain ⟨rfl, rfl⟩ := hp
      exact hy
  · intro hx
    have hm : c ∈ (ts.filter fun x => x.1.shown && x.1.place == [['#'], r, n]).map Prod.snd :=
      List.mem_map.mpr ⟨_, List.mem_filter.mpr ⟨hx, by simp [TargetRef.shown, TargetRef.place]⟩, rfl⟩
    exact ⟨_, (hj _ _).mpr ⟨fun e => (List.not_mem_nil (e ▸ hm)).elim, rfl⟩, hm⟩

/-! ## Example -/

/-- Targets with several configurations, a source file, and an anonymous target; the name of the third one
is that of a module. -/
def exampleTargets : List (TargetRef × Json Unit) := [
  (.named [] "m".toList "a".toList true, obj []),
  (.named [] "m".toList "f.c".toList false, obj []),
  (.named [] [] "m".toList true, obj []),
  (.anonymous "r".toList "n".toList, obj [("X".toList, null)]),
  (.named [] "m".toList "a".toList true, obj [("X".toList, null)])]

example : (dumpTargets exampleTargets).map (fun j => String.ofList (dump (fun _ => ['0']) compact 0 j)) =
    some "{\"#\":{\"r\":{\"n\":[{\"X\":null}]}},\"@\":{\"\":{\"\":{\"m\":[{}]},\"m\":{\"a\":[{},{\"X\":null}]}}}}" := by
  decide +kernel

/-- The hypotheses of C119_shown are met. -/
example {j : Json Unit} (h : dumpTargets exampleTargets = some j) :
    ∃ l, lookAt [['@'], [], "m".toList, "a".toList] j = some (arr l) ∧ obj [("X".toList, null)] ∈ l :=
  (C119_shown h _ _ _ _).mpr (by simp [exampleTargets])

/-- Something without configurations in it is never passed on; an object and a list in the same place would
be an exception. -/
example : pushAt (null : Json Unit) ["a".toList, "b".toList] (obj [("a".toList, arr [])]) = none := rfl

end Verif.Dump
