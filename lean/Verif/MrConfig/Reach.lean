import Verif.MrConfig.Alias
import Mathlib.Data.List.Dedup

/-!
# The repositories involved: `ReachableRepositories`
-/

namespace Verif.MrConfig

open Verif

section
variable {N : Type} {repos : List (Str × Json N)}

theorem Out.bind_ok {α β : Type} {x : Out α} {f : α → Out β} {b : β} :
    x.bind f = .ok b ↔ ∃ a, x = .ok a ∧ f a = .ok b := by
  cases x <;> simp [Out.bind]

theorem Out.bind_hang {α β : Type} {x : Out α} {f : α → Out β} :
    x.bind f = .hang ↔ x = .hang ∨ ∃ a, x = .ok a ∧ f a = .hang := by
  cases x <;> simp [Out.bind]

theorem mapAll_ok {α β : Type} {f : α → Out β} {l : List α} {bs : List β} (h : mapAll f l = .ok bs) :
    bs.length = l.length ∧ (∀ b, b ∈ bs ↔ ∃ a ∈ l, f a = .ok b) ∧ ∀ a ∈ l, ∃ b, f a = .ok b := by
  induction l generalizing bs with
  | nil =>
    rw [mapAll] at h; cases h
    refine ⟨rfl, fun b => ⟨fun hb => absurd hb List.not_mem_nil, ?_⟩, fun a ha => absurd ha List.not_mem_nil⟩
    rintro ⟨a, ha, _⟩
    exact absurd ha List.not_mem_nil
  | cons a l ih =>
    rw [mapAll] at h
    obtain ⟨b, hb, h⟩ := Out.bind_ok.mp h
    obtain ⟨bs', hbs, h⟩ := Out.bind_ok.mp h
    cases h
    obtain ⟨h1, h2, h3⟩ := ih hbs
    refine ⟨by simp [h1], fun x => ?_, fun x hx => ?_⟩
    · constructor
      · intro hx
        rcases List.mem_cons.mp hx with rfl | hx
        · exact ⟨a, List.mem_cons_self, hb⟩
        · obtain ⟨a', ha', e⟩ := (h2 x).mp hx
          exact ⟨a', List.mem_cons_of_mem _ ha', e⟩
      · rintro ⟨a', ha', e⟩
        rcases List.mem_cons.mp ha' with rfl | ha'
        · rw [hb] at e; cases e; exact List.mem_cons_self
        · exact List.mem_cons_of_mem _ ((h2 x).mpr ⟨a', ha', e⟩)
    · rcases List.mem_cons.mp hx with rfl | hx
      · exact ⟨b, hb⟩
      · exact h3 x hx

theorem mapAll_hang {α β : Type} {f : α → Out β} {l : List α} (h : mapAll f l = .hang) :
    ∃ a ∈ l, f a = .hang := by
  induction l with
  | nil => rw [mapAll] at h; cases h
  | cons a l ih =>
    rw [mapAll] at h
    rcases Out.bind_hang.mp h with h | ⟨b, _, h⟩
    · exact ⟨a, List.mem_cons_self, h⟩
    · rcases Out.bind_hang.mp h with h | ⟨_, _, h⟩
      · obtain ⟨a', h1, h2⟩ := ih h
        exact ⟨a', List.mem_cons_of_mem _ h1, h2⟩
      · cases h

theorem mem_reduceOption {α : Type} {l : List (Option α)} {a : α} : a ∈ l.reduceOption ↔ some a ∈ l := by
  unfold List.reduceOption
  rw [List.mem_filterMap]
  exact ⟨fun ⟨x, hx, e⟩ => by rw [← show x = some a from e]; exact hx, fun h => ⟨_, h, rfl⟩⟩

theorem mem_boundNames {a b : Str} {l : List (Str × Json N)} (h : assoc a repos = some (.obj l)) :
    b ∈ boundNames l ↔ Binds repos a b := by
  unfold boundNames Binds
  split
  · rename_i bs hbs
    simp only [List.mem_filterMap]
    constructor
    · rintro ⟨⟨k, v⟩, hm, he⟩
      simp only at he
      split at he
      · rename_i s
        cases he
        exact ⟨bs, k, ⟨(fun e => nomatch e), l, h, (field_eq_of_ne (fun e => by cases e)).mp hbs⟩, hm⟩
      · cases he
    · rintro ⟨bs', k, ⟨_, l', h1, h2⟩, hm⟩
      rw [h] at h1; cases h1
      rw [(field_eq_of_ne (l := l) (fun e => by cases e)).mpr h2] at hbs
      cases hbs
      exact ⟨_, hm, rfl⟩
  · rename_i hno
    constructor
    · intro hb; exact absurd hb List.not_mem_nil
    · rintro ⟨bs', k, ⟨_, l', h1, h2⟩, hm⟩
      rw [h] at h1; cases h1
      exact absurd ((field_eq_of_ne (l := l) (fun e => by cases e)).mpr h2) (hno bs')

theorem mem_layerNames {a c : Str} {l : List (Str × Json N)} (h : assoc a repos = some (.obj l)) :
    c ∈ layerNames l ↔ ∃ k, Layer repos a k c := by
  unfold layerNames Layer
  simp only [List.mem_filterMap]
  constructor
  · rintro ⟨k, hk, he⟩
    split at he
    · rename_i s hs
      cases he
      refine ⟨k, ?_, (fun e => nomatch e), l, h, field_str.mp hs⟩
      simpa [altDirs] using hk
    · cases he
  · rintro ⟨k, hk, _, l', h1, h2⟩
    rw [h] at h1; cases h1
    refine ⟨k, by simpa [altDirs] using hk, ?_⟩
    rw [field_str.mpr h2]

theorem layerNames_length (l : List (Str × Json N)) : (layerNames l).length ≤ 3 :=
  List.length_filterMap_le _ _

theorem refers_obj {a b : Str} (h : Refers repos a b) : ∃ l, assoc a repos = some (.obj l) := by
  obtain ⟨d, hd, _⟩ := h
  obtain ⟨l, _, hl, _⟩ := describes_iff.mp hd
  exact ⟨l, hl⟩

theorem binds_obj {a b : Str} (h : Binds repos a b) : ∃ l, assoc a repos = some (.obj l) := by
  obtain ⟨_, _, ⟨_, l, hl, _⟩, _⟩ := h
  exact ⟨l, hl⟩

theorem layer_obj {a k b : Str} (h : Layer repos a k b) : ∃ l, assoc a repos = some (.obj l) := by
  obtain ⟨_, _, l, hl, _⟩ := h
  exact ⟨l, hl⟩

/-- What a repository leads to. -/
def Leads (repos : List (Str × Json N)) (a b : Str) : Prop :=
  Refers repos a b ∨ Binds repos a b ∨ ∃ k c, Layer repos a k c ∧ Refers repos c b

/-- The names found in the description of a repository. -/
theorem visit_ok {a : Str} {found ls : List Str} (h : visit repos a = .ok (found, ls)) :
    (∀ b, b ∈ found ↔ Leads repos a b) ∧ ∀ c, c ∈ ls ↔ ∃ k, Layer repos a k c := by
  have hnone : (∀ l, assoc a repos ≠ some (.obj l)) →
      (∀ b, b ∈ ([] : List Str) ↔ Leads repos a b) ∧ ∀ c, c ∈ ([] : List Str) ↔ ∃ k, Layer repos a k c := by
    intro hno
    refine ⟨fun b => ⟨fun hb => absurd hb List.not_mem_nil, ?_⟩,
      fun c => ⟨fun hb => absurd hb List.not_mem_nil, ?_⟩⟩
    · rintro (h | h | ⟨k, c, h, _⟩)
      · obtain ⟨l, hl⟩ := refers_obj h; exact absurd hl (hno l)
      · obtain ⟨l, hl⟩ := binds_obj h; exact absurd hl (hno l)
      · obtain ⟨l, hl⟩ := layer_obj h; exact absurd hl (hno l)
    · rintro ⟨k, h⟩
      obtain ⟨l, hl⟩ := layer_obj h; exact absurd hl (hno l)
  unfold visit at h
  split at h
  · rename_i hn
    cases h
    exact hnone fun l hl => by rw [hn] at hl; cases hl
  · rename_i hn
    cases h
    exact hnone fun l hl => by rw [hn] at hl; cases hl
  · rename_i d hd1 hd
    obtain ⟨own, hown, h⟩ := Out.bind_ok.mp h
    split at h
    · rename_i l
      obtain ⟨ts, hts, h⟩ := Out.bind_ok.mp h
      cases h
      obtain ⟨_, h2, h3⟩ := mapAll_ok hts
      refine ⟨fun b => ?_, fun c => mem_layerNames hd⟩
      simp only [List.mem_append, mem_boundNames hd, mem_reduceOption, Leads, or_assoc]
      have e1 : b ∈ own.toList ↔ Refers repos a b := by
        rw [← targetOf_some, hown]
        cases own <;> simp [eq_comm]
      have e2 : some b ∈ ts ↔ ∃ k c, Layer repos a k c ∧ Refers repos c b := by
        rw [h2]
        constructor
        · rintro ⟨c, hc, he⟩
          obtain ⟨k, hk⟩ := (mem_layerNames hd).mp hc
          exact ⟨k, c, hk, targetOf_some.mp he⟩
        · rintro ⟨k, c, hk, hr⟩
          exact ⟨c, (mem_layerNames hd).mpr ⟨k, hk⟩, targetOf_some.mpr hr⟩
      rw [e1, e2]
    · cases h

theorem reduceOption_length_le {α : Type} (l : List (Option α)) : l.reduceOption.length ≤ l.length := by
  unfold List.reduceOption
  exact List.length_filterMap_le _ _

theorem visit_length {a : Str} {found ls : List Str} (h : visit repos a = .ok (found, ls)) :
    found.length ≤ match assoc a repos with | some d => pushes d | none => 0 := by
  unfold visit at h
  split at h
  · cases h; simp
  · cases h; simp
  · rename_i d hd1 hd
    rw [hd]
    obtain ⟨own, hown, h⟩ := Out.bind_ok.mp h
    split at h
    · rename_i l _
      obtain ⟨ts, hts, h⟩ := Out.bind_ok.mp h
      cases h
      obtain ⟨h1, _⟩ := mapAll_ok hts
      have h2 := reduceOption_length_le ts
      have h3 := layerNames_length l
      have h4 : own.toList.length ≤ 1 := by cases own <;> simp
      simp only [List.length_append, pushes]
      omega
    · cases h

theorem visit_hang {a : Str} (h : visit repos a = .hang) :
    ∃ c, (c = a ∨ ∃ k, Layer repos a k c) ∧ ¬ Grounded repos c := by
  unfold visit at h
  split at h
  · cases h
  · cases h
  · rename_i d hd1 hd
    rcases Out.bind_hang.mp h with h | ⟨own, hown, h⟩
    · exact ⟨a, Or.inl rfl, targetOf_hang.mp h⟩
    · split at h
      · rename_i l
        rcases Out.bind_hang.mp h with h | ⟨_, _, h⟩
        · obtain ⟨c, hc, he⟩ := mapAll_hang h
          exact ⟨c, Or.inr ((mem_layerNames hd).mp hc), targetOf_hang.mp he⟩
        · cases h
      · cases h

/-! ## The queue -/

/-- Everything the queue contains at the end is in every set that contains the names it starts with and is
closed. -/
theorem reachLoop_sound {fuel : Nat} {q inc layers inc' layers' : List Str}
    (h : reachLoop repos fuel q inc layers = .ok (inc', layers')) (P : Str → Prop)
    (hq : ∀ n ∈ q, P n) (hi : ∀ n ∈ inc, P n) (hc : ∀ a b, P a → Leads repos a b → P b) :
    ∀ n ∈ inc', P n := by
  induction fuel generalizing q inc layers with
  | zero =>
    cases q with
    | nil => rw [reachLoop] at h; cases h; exact hi
    | cons n q => rw [reachLoop] at h; cases h
  | succ fuel ih =>
    cases q with
    | nil => rw [reachLoop] at h; cases h; exact hi
    | cons n q =>
      rw [reachLoop] at h
      split at h
      · exact ih h (fun x hx => hq x (List.mem_cons_of_mem _ hx)) hi
      · obtain ⟨⟨found, ls⟩, hv, h⟩ := Out.bind_ok.mp h
        have hn := hq n List.mem_cons_self
        refine ih h (fun x hx => ?_) (fun x hx => ?_)
        · rcases List.mem_append.mp hx with hx | hx
          · exact hq x (List.mem_cons_of_mem _ hx)
          · exact hc n x hn (((visit_ok hv).1 x).mp hx)
        · rcases List.mem_append.mp hx with hx | hx
          · exact hi x hx
          · rw [List.mem_singleton.mp hx]; exact hn

/-- The result of the queue is closed, and the layers are those of the repositories found. -/
theorem reachLoop_complete {fuel : Nat} {q inc layers inc' layers' : List Str}
    (h : reachLoop repos fuel q inc layers = .ok (inc', layers'))
    (hi : ∀ a ∈ inc, ∀ b, Leads repos a b → b ∈ inc ∨ b ∈ q)
    (hl : ∀ c, c ∈ layers ↔ ∃ a ∈ inc, ∃ k, Layer repos a k c) (hnd : inc.Nodup) :
    (∀ n ∈ inc, n ∈ inc') ∧ (∀ n ∈ q, n ∈ inc') ∧
    (∀ a ∈ inc', ∀ b, Leads repos a b → b ∈ inc') ∧
    (∀ c, c ∈ layers' ↔ ∃ a ∈ inc', ∃ k, Layer repos a k c) ∧ inc'.Nodup := by
  have hbase : ∀ {inc layers : List Str}, (inc, layers) = (inc', layers') →
      (∀ a ∈ inc, ∀ b, Leads repos a b → b ∈ inc ∨ b ∈ ([] : List Str)) →
      (∀ c, c ∈ layers ↔ ∃ a ∈ inc, ∃ k, Layer repos a k c) → inc.Nodup →
      (∀ n ∈ inc, n ∈ inc') ∧ (∀ n ∈ ([] : List Str), n ∈ inc') ∧
      (∀ a ∈ inc', ∀ b, Leads repos a b → b ∈ inc') ∧
      (∀ c, c ∈ layers' ↔ ∃ a ∈ inc', ∃ k, Layer repos a k c) ∧ inc'.Nodup := by
    intro inc layers e hi hl hnd
    cases e
    refine ⟨fun _ h => h, fun n h => absurd h List.not_mem_nil, fun a ha b hb => ?_, hl, hnd⟩
    rcases hi a ha b hb with h | h
    · exact h
    · exact absurd h List.not_mem_nil
  induction fuel generalizing q inc layers with
  | zero =>
    cases q with
    | nil => rw [reachLoop] at h; exact hbase (Out.ok.inj h) hi hl hnd
    | cons n q => rw [reachLoop] at h; cases h
  | succ fuel ih =>
    cases q with
    | nil => rw [reachLoop] at h; exact hbase (Out.ok.inj h) hi hl hnd
    | cons n q =>
      rw [reachLoop] at h
      split at h
      · rename_i hn
        obtain ⟨h1, h2, h3⟩ := ih h (fun a ha b hb => by
          rcases hi a ha b hb with h | h
          · exact Or.inl h
          · rcases List.mem_cons.mp h with rfl | h
            · exact Or.inl hn
            · exact Or.inr h) hl hnd
        refine ⟨h1, fun x hx => ?_, h3⟩
        rcases List.mem_cons.mp hx with rfl | hx
        · exact h1 _ hn
        · exact h2 x hx
      · rename_i hn
        obtain ⟨⟨found, ls⟩, hv, h⟩ := Out.bind_ok.mp h
        obtain ⟨v1, v2⟩ := visit_ok hv
        obtain ⟨h1, h2, h3⟩ := ih h (fun a ha b hb => by
          rcases List.mem_append.mp ha with ha | ha
          · rcases hi a ha b hb with h | h
            · exact Or.inl (List.mem_append_left _ h)
            · rcases List.mem_cons.mp h with rfl | h
              · exact Or.inl (List.mem_append_right _ List.mem_cons_self)
              · exact Or.inr (List.mem_append_left _ h)
          · rw [List.mem_singleton.mp ha] at hb
            exact Or.inr (List.mem_append_right _ ((v1 b).mpr hb))) (fun c => by
          rw [List.mem_append, hl, v2]
          constructor
          · rintro (⟨a, ha, hk⟩ | hk)
            · exact ⟨a, List.mem_append_left _ ha, hk⟩
            · exact ⟨n, List.mem_append_right _ List.mem_cons_self, hk⟩
          · rintro ⟨a, ha, hk⟩
            rcases List.mem_append.mp ha with ha | ha
            · exact Or.inl ⟨a, ha, hk⟩
            · rw [List.mem_singleton.mp ha] at hk; exact Or.inr hk) (by
          rw [List.nodup_append]
          exact ⟨hnd, List.nodup_cons.mpr ⟨List.not_mem_nil, List.nodup_nil⟩,
            fun a ha b hb e => by rw [List.mem_singleton.mp hb] at e; exact hn (e ▸ ha)⟩)
        refine ⟨fun x hx => h1 x (List.mem_append_left _ hx), fun x hx => ?_, h3⟩
        rcases List.mem_cons.mp hx with rfl | hx
        · exact h1 _ (List.mem_append_right _ List.mem_cons_self)
        · exact h2 x (List.mem_append_left _ hx)

/-- Number of names that repositories not yet processed can still add. -/
def remaining (repos : List (Str × Json N)) (inc : List Str) : Nat :=
  ((repos.filter fun p => decide (p.1 ∉ inc)).map fun p => pushes p.2).sum

theorem remaining_visit {inc : List Str} {n : Str} (hn : n ∉ inc) (l : List (Str × Json N)) :
    remaining l (inc ++ [n]) + (match assoc n l with | some d => pushes d | none => 0) ≤ remaining l inc := by
  induction l with
  | nil => simp [remaining, assoc]
  | cons p t ih =>
    obtain ⟨k, d⟩ := p
    unfold remaining at ih ⊢
    by_cases hk : n = k
    · subst hk
      have hle : ((t.filter fun p => decide (p.1 ∉ inc ++ [n])).map fun p => pushes p.2).sum ≤
          ((t.filter fun p => decide (p.1 ∉ inc)).map fun p => pushes p.2).sum := by
        revert ih; generalize (match assoc n t with | some d => pushes d | none => 0) = z; intro ih; omega
      simp only [assoc, if_true, List.filter_cons, List.mem_append, List.mem_singleton, or_true,
        not_true_eq_false, decide_false, Bool.false_eq_true, if_false, hn, not_false_eq_true, decide_true,
        List.map_cons, List.sum_cons]
      simp only [List.mem_append, List.mem_singleton] at hle
      omega
    · have hk' : ¬ k = n := fun e => hk e.symm
      simp only [assoc, if_neg hk]
      by_cases hi : k ∈ inc
      · simp only [List.filter_cons, List.mem_append, List.mem_singleton, hi, true_or, not_true_eq_false,
          decide_false, Bool.false_eq_true, if_false]
        simp only [List.mem_append, List.mem_singleton] at ih
        exact ih
      · simp only [List.filter_cons, List.mem_append, List.mem_singleton, hi, hk', or_self,
          not_false_eq_true, decide_true, if_true, List.map_cons, List.sum_cons]
        simp only [List.mem_append, List.mem_singleton] at ih
        omega

/-- The bound on the number of steps is never the reason for not ending. -/
theorem reachLoop_hang {fuel : Nat} {q inc layers : List Str}
    (h : reachLoop repos fuel q inc layers = .hang) (hf : q.length + remaining repos inc ≤ fuel)
    (P : Str → Prop) (hq : ∀ n ∈ q, P n) (hc : ∀ a b, P a → Leads repos a b → P b) :
    ∃ n, P n ∧ visit repos n = .hang := by
  induction fuel generalizing q inc layers with
  | zero =>
    cases q with
    | nil => rw [reachLoop] at h; cases h
    | cons n q => simp only [List.length_cons] at hf; omega
  | succ fuel ih =>
    cases q with
    | nil => rw [reachLoop] at h; cases h
    | cons n q =>
      rw [reachLoop] at h
      simp only [List.length_cons] at hf
      split at h
      · exact ih h (by omega) (fun x hx => hq x (List.mem_cons_of_mem _ hx))
      · rename_i hn
        rcases Out.bind_hang.mp h with h | ⟨⟨found, ls⟩, hv, h⟩
        · exact ⟨n, hq n List.mem_cons_self, h⟩
        · have h1 := visit_length hv
          have h2 := remaining_visit hn repos
          refine ih h ?_ (fun x hx => ?_)
          · simp only [List.length_append]
            generalize (match assoc n repos with | some d => pushes d | none => 0) = z at h1 h2
            omega
          · rcases List.mem_append.mp hx with hx | hx
            · exact hq x (List.mem_cons_of_mem _ hx)
            · exact hc n x (hq n List.mem_cons_self) (((visit_ok hv).1 x).mp hx)

theorem needed_closed {main a b : Str} (h : Needed repos main a) (hl : Leads repos a b) :
    Needed repos main b := by
  rcases hl with h1 | h1 | ⟨k, c, h1, h2⟩
  · exact .root h h1
  · exact .binds h h1
  · exact .layer h h1 h2

/-- The repositories included are exactly those needed; those set up are, in addition, their layers. -/
theorem reachable_ok {main : Str} {inv : Involved} (h : reachable repos main = .ok inv) :
    (∀ n, n ∈ inv.toInclude ↔ Needed repos main n) ∧
    (∀ n, n ∈ inv.toSetup ↔ Needed repos main n ∨ ∃ a k, Needed repos main a ∧ Layer repos a k n) ∧
    inv.toInclude.Nodup ∧ inv.toSetup.Nodup := by
  unfold reachable at h
  obtain ⟨⟨inc, layers⟩, hr, h⟩ := Out.bind_ok.mp h
  cases h
  have hs := reachLoop_sound hr (Needed repos main) (fun n hn => by
    rw [List.mem_singleton.mp hn]; exact .main) (fun n hn => absurd hn List.not_mem_nil)
    (fun a b ha hb => needed_closed ha hb)
  obtain ⟨_, c2, c3, c4, c5⟩ := reachLoop_complete hr (fun a ha => absurd ha List.not_mem_nil)
    (fun c => ⟨fun hc => absurd hc List.not_mem_nil, fun ⟨a, ha, _⟩ => absurd ha List.not_mem_nil⟩)
    List.nodup_nil
  have hinc : ∀ n, n ∈ inc ↔ Needed repos main n := by
    intro n
    refine ⟨hs n, fun hn => ?_⟩
    induction hn with
    | main => exact c2 _ List.mem_cons_self
    | binds h hb ih => exact c3 _ ih _ (Or.inr (Or.inl hb))
    | root h hb ih => exact c3 _ ih _ (Or.inl hb)
    | layer h hl hb ih => exact c3 _ ih _ (Or.inr (Or.inr ⟨_, _, hl, hb⟩))
  refine ⟨hinc, fun n => ?_, c5, List.nodup_dedup _⟩
  simp only [List.mem_dedup, List.mem_append, c4, hinc]
  constructor
  · rintro (⟨a, ha, k, hk⟩ | h)
    · exact Or.inr ⟨a, k, ha, hk⟩
    · exact Or.inl h
  · rintro (h | ⟨a, k, ha, hk⟩)
    · exact Or.inr h
    · exact Or.inl ⟨a, ha, k, hk⟩

theorem remaining_nil (l : List (Str × Json N)) : remaining l [] = (l.map fun p => pushes p.2).sum := by
  simp [remaining]

/-- The search does not end only because of a cyclic chain of aliases. -/
theorem reachable_hang {main : Str} (h : reachable repos main = .hang) :
    ∃ n c, Needed repos main n ∧ (c = n ∨ ∃ k, Layer repos n k c) ∧ ¬ Grounded repos c := by
  unfold reachable at h
  rcases Out.bind_hang.mp h with h | ⟨_, _, h⟩
  · obtain ⟨n, hn, hv⟩ := reachLoop_hang h (by
      rw [remaining_nil, reachFuel, List.length_singleton]) (Needed repos main) (fun n hn => by
      rw [List.mem_singleton.mp hn]; exact .main) (fun a b ha hb => needed_closed ha hb)
    obtain ⟨c, h1, h2⟩ := visit_hang hv
    exact ⟨n, c, hn, h1, h2⟩
  · cases h

end

end Verif.MrConfig
