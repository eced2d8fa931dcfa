import Verif.MrRc.Spec
import Mathlib.Data.List.Induction

/-! # just-mr: lemmas about rc files -/

namespace Verif.MrRc

open Verif

section
variable {N : Type}

theorem foldl_assign_find {V : Type} (k : Str) : ∀ (l : List (Str × V)) (m : OMap Str V),
    (l.foldl (fun m p => m.assign p.1 p.2) m).find k =
      ((l.foldl (fun m p => m.assign p.1 p.2) OMap.empty).find k).or (m.find k)
  | [], m => by simp
  | p :: l, m => by
    simp only [List.foldl_cons]
    rw [foldl_assign_find k l (m.assign p.1 p.2), foldl_assign_find k l (OMap.empty.assign p.1 p.2)]
    rw [OMap.find_assign, OMap.find_assign]
    by_cases h : k = p.1
    · simp [h]
    · simp [h]

theorem mk_items {V : Type} (m : OMap Str V) : mk m.items = m := by
  have gen : ∀ (l : List (Str × V)) (hl : Ascending l) (k : Str), (mk l).find k = assoc k l := by
    intro l
    induction l with
    | nil => intro _ k; rfl
    | cons p t ih =>
      intro hl k
      have ht : Ascending t := (List.pairwise_cons.1 hl).2
      unfold mk
      rw [List.foldl_cons, foldl_assign_find]
      have := ih ht k
      unfold mk at this
      rw [this, OMap.find_assign]
      by_cases h : k = p.1
      · have hn : assoc k t = none := assoc_eq_none_of_lt
          (fun q hq => by rw [h]; exact (List.pairwise_cons.1 hl).1 q hq)
        rw [hn]
        simp [h, assoc]
      · simp only [h, if_false, OMap.find_empty, Option.or_none]
        obtain ⟨a, b⟩ := p
        simp only [assoc]
        rw [if_neg h]
  exact OMap.ext fun k => gen m.items m.asc k

theorem update_find (base delta : OMap Str (Json N)) (k : Str) :
    (update base delta).find k = (delta.find k).or (base.find k) := by
  unfold update
  rw [foldl_assign_find]
  have := mk_items delta
  unfold mk at this
  rw [this]

theorem merge_plain (base delta : Rc N) {k : Str} (h1 : k ∉ accumulating) (h2 : k ∉ localMerge) :
    (merge base delta).find k = (delta.find k).or (base.find k) := by
  simp only [accumulating, localMerge, List.mem_cons, List.not_mem_nil, or_false, not_or] at h1 h2
  simp only [merge, accumulating, localMerge, List.foldl_cons, List.foldl_nil, OMap.find_assign, h1, h2.1,
    h2.2.1, h2.2.2, if_false, update_find]

theorem merge_distdirs (base delta : Rc N) :
    (merge base delta).find "distdirs".toList =
      some (.arr (elems (field "distdirs".toList delta) ++ elems (field "distdirs".toList base))) := by
  simp only [merge, accumulating, localMerge, List.foldl_cons, List.foldl_nil, OMap.find_assign]
  rw [if_neg (by decide), if_neg (by decide), if_neg (by decide), if_pos trivial]

theorem merge_local (base delta : Rc N) {k : Str} (h : k ∈ localMerge) :
    (merge base delta).find k = some (.obj (update (update OMap.empty (entries (field k base)))
      (entries (field k delta))).items) := by
  simp only [localMerge, List.mem_cons, List.not_mem_nil, or_false] at h
  rcases h with h | h | h <;> subst h <;>
    simp only [merge, accumulating, localMerge, List.foldl_cons, List.foldl_nil, OMap.find_assign]
  · rw [if_neg (by decide), if_neg (by decide), if_pos trivial]
  · rw [if_neg (by decide), if_pos trivial]
  · rw [if_pos trivial]

theorem merge_local_find (base delta : Rc N) {k : Str} (h : k ∈ localMerge) (s : Str) :
    (entries (field k (merge base delta))).find s =
      ((entries (field k delta)).find s).or ((entries (field k base)).find s) := by
  unfold field
  rw [merge_local base delta h]
  simp only [Option.getD_some, entries]
  rw [mk_items, update_find, update_find]
  simp [field]

theorem last_nil {V : Type} (k : Str) (v : V) : ¬ Last k [] v := by
  rintro ⟨pre, m, post, h, _⟩
  cases pre <;> cases h

theorem last_append {V : Type} (k : Str) (ms : List (OMap Str V)) (d : OMap Str V) (v : V) :
    Last k (ms ++ [d]) v ↔ d.find k = some v ∨ (d.find k = none ∧ Last k ms v) := by
  constructor
  · rintro ⟨pre, m, post, h, hm, hp⟩
    rcases List.eq_nil_or_concat post with rfl | ⟨post', e, rfl⟩
    · have := List.append_inj' h rfl
      obtain ⟨_, h2⟩ := this
      cases h2
      exact .inl hm
    · rw [List.concat_eq_append, ← List.cons_append, ← List.append_assoc] at h
      have := List.append_inj' h rfl
      obtain ⟨h1, h2⟩ := this
      cases h2
      refine .inr ⟨hp _ (by simp), ⟨pre, m, post', h1, hm, fun x hx => hp x (by simp [hx])⟩⟩
  · rintro (h | ⟨h, pre, m, post, h1, h2, h3⟩)
    · exact ⟨ms, d, [], rfl, h, fun _ hx => absurd hx List.not_mem_nil⟩
    · refine ⟨pre, m, post ++ [d], by rw [h1]; simp, h2, ?_⟩
      intro e he
      rcases List.mem_append.1 he with he | he
      · exact h3 e he
      · rw [List.mem_singleton.1 he]; exact h

theorem last_foldl {V : Type} (k : Str) (f : OMap Str V → OMap Str V → OMap Str V)
    (hf : ∀ b d, (f b d).find k = (d.find k).or (b.find k)) (v : V) :
    ∀ (ds : List (OMap Str V)) (b : OMap Str V), (ds.foldl f b).find k = some v ↔ Last k (b :: ds) v := by
  intro ds
  induction ds using List.reverseRecOn with
  | nil =>
    intro b
    have := last_append k [] b v
    rw [List.nil_append] at this
    simp only [List.foldl_nil]
    rw [this]
    constructor
    · exact .inl
    · rintro (h | ⟨_, h⟩)
      · exact h
      · exact absurd h (last_nil k v)
  | append_singleton ds d ih =>
    intro b
    rw [List.foldl_append, List.foldl_cons, List.foldl_nil, hf, ← List.cons_append, last_append, ← ih b]
    cases d.find k <;> simp

/-- The root of a location is known, or there is none. -/
def Plain (j : Json N) : Prop := j = .null ∨ KnownRoot j

theorem readEntry_iff {env : Env N} {j : Json N} (hk : Plain j) {r : Option (Str × Str)}
    (h : readEntry env j = some r) (p b : Str) : r = some (p, b) ↔ IsLocation env j p b := by
  rcases hk with rfl | hk
  · simp only [readEntry] at h
    cases h
    constructor
    · intro e; cases e
    · rintro (⟨path, hp, _⟩ | ⟨path, base, hp, _⟩) <;> cases hp
  · have hj : readLocation env j = some r := by
      cases j <;> first | exact h | (rcases hk with e | e | e <;> cases e)
    obtain ⟨root, hr, hroot⟩ : ∃ root, get "root".toList j = some (.str root) ∧
        (root = "workspace".toList ∨ root = "home".toList ∨ root = "system".toList) := by
      rcases hk with e | e | e
      · exact ⟨_, e, .inl rfl⟩
      · exact ⟨_, e, .inr (.inl rfl)⟩
      · exact ⟨_, e, .inr (.inr rfl)⟩
    unfold readLocation at hj
    rw [hr] at hj
    -- the path
    cases hp : get "path".toList j with
    | none => rw [hp] at hj; cases hj
    | some pj =>
      rw [hp] at hj
      cases pj with
      | str path =>
        simp only at hj
        -- what a location is
        have loc : ∀ sub x, LocatedAt env j sub x ↔
            ((root = "workspace".toList ∧ ∃ w, env.ws = some w ∧ x = env.canonical w sub) ∨
             (root = "home".toList ∧ x = env.canonical env.home sub) ∨
             (root = "system".toList ∧ x = env.canonical "/".toList sub)) := by
          intro sub x
          constructor
          · rintro ⟨root', hr', h⟩
            rw [hr] at hr'
            cases hr'
            exact h
          · intro h; exact ⟨root, hr, h⟩
        have main : ∀ base, (if root = "workspace".toList then
              some (env.ws.map fun w => (env.canonical w path, env.canonical w base))
            else some (some (env.canonical (if root = "home".toList then env.home
              else if root = "system".toList then "/".toList else []) path,
              env.canonical (if root = "home".toList then env.home
              else if root = "system".toList then "/".toList else []) base))) = some r →
            (r = some (p, b) ↔ LocatedAt env j path p ∧ LocatedAt env j base b) := by
          intro base hb
          rw [loc, loc]
          rcases hroot with e | e | e
          · subst e
            rw [if_pos rfl] at hb
            rw [← Option.some.inj hb]
            cases env.ws with
            | none => simp
            | some w =>
              simp only [Option.map_some, Option.some.injEq, Prod.mk.injEq]
              constructor
              · rintro ⟨h1, h2⟩
                exact ⟨.inl ⟨trivial, w, rfl, h1.symm⟩, .inl ⟨trivial, w, rfl, h2.symm⟩⟩
              · rintro ⟨h1 | h1 | h1, h2 | h2 | h2⟩
                · obtain ⟨_, w1, e1, h1⟩ := h1
                  obtain ⟨_, w2, e2, h2⟩ := h2
                  subst e1; subst e2
                  exact ⟨h1.symm, h2.symm⟩
                all_goals first
                  | exact absurd h2.1 (by decide)
                  | exact absurd h1.1 (by decide)
          · subst e
            rw [if_neg (by decide), if_pos rfl] at hb
            rw [← Option.some.inj hb]
            simp only [Option.some.injEq, Prod.mk.injEq]
            constructor
            · rintro ⟨h1, h2⟩
              exact ⟨.inr (.inl ⟨trivial, h1.symm⟩), .inr (.inl ⟨trivial, h2.symm⟩)⟩
            · rintro ⟨h1 | h1 | h1, h2 | h2 | h2⟩
              all_goals first
                | exact ⟨h1.2.symm, h2.2.symm⟩
                | exact absurd h2.1 (by decide)
                | exact absurd h1.1 (by decide)
          · subst e
            rw [if_neg (by decide), if_neg (by decide), if_pos rfl] at hb
            rw [← Option.some.inj hb]
            simp only [Option.some.injEq, Prod.mk.injEq]
            constructor
            · rintro ⟨h1, h2⟩
              exact ⟨.inr (.inr ⟨trivial, h1.symm⟩), .inr (.inr ⟨trivial, h2.symm⟩)⟩
            · rintro ⟨h1 | h1 | h1, h2 | h2 | h2⟩
              all_goals first
                | exact ⟨h1.2.symm, h2.2.symm⟩
                | exact absurd h2.1 (by decide)
                | exact absurd h1.1 (by decide)
        unfold baseOf at hj
        cases hb : get "base".toList j with
        | none =>
          rw [hb] at hj
          rw [main _ hj]
          constructor
          · rintro ⟨h1, h2⟩; exact .noBase path hp hb h1 h2
          · rintro (⟨path', hp', hb', h1, h2⟩ | ⟨path', base', hp', hb', h1, h2⟩)
            · rw [hp] at hp'; cases hp'; exact ⟨h1, h2⟩
            · rw [hb] at hb'; cases hb'
        | some bj =>
          rw [hb] at hj
          cases bj with
          | str base =>
            rw [main _ hj]
            constructor
            · rintro ⟨h1, h2⟩; exact .base path base hp hb h1 h2
            · rintro (⟨path', hp', hb', h1, h2⟩ | ⟨path', base', hp', hb', h1, h2⟩)
              · rw [hb] at hb'; cases hb'
              · rw [hp] at hp'; rw [hb] at hb'; cases hp'; cases hb'; exact ⟨h1, h2⟩
          | _ => cases hj
      | _ => cases hj

end

end Verif.MrRc
