import Verif.MrUpdate.Model
import Verif.MrConfig.Alias

/-!
# `just-mr update` (C112)
-/

namespace Verif.MrUpdate

open Verif Verif.MrConfig

section
variable {N : Type}

/-! ## What is asked for, independent of the code -/

/-- The value at a place in nested objects. -/
def get : List Str → Json N → Option (Json N)
  | [], j => some j
  | k :: p, .obj l => (assoc k l).bind (get p)
  | _ :: _, _ => none

/-- An explicit description of a git repository. -/
structure Git (r : List (Str × Json N)) (d : Desc) : Prop where
  type : assoc "type".toList r = some (.str "git".toList)
  url : assoc "repository".toList r = some (.str d.url)
  branch : assoc "branch".toList r = some (.str d.branch)
  env : (assoc "inherit env".toList r = none ∧ d.env = []) ∨ assoc "inherit env".toList r = some (.arr (d.env.map .str))

/-- The repository has such a description of its own. -/
def Own (cfg : Json N) (n : Str) (d : Desc) : Prop :=
  ∃ r, get ["repositories".toList, n, "repository".toList] cfg = some (.obj r) ∧ Git r d

/-- The last component of a name. -/
def Last (name b : Str) : Prop := '/' ∉ b ∧ (name = b ∨ ∃ p, name = p ++ '/' :: b)

/-- What is offered for a description: the identifier of the first reference with the branch as last component; or the first column
of what `git ls-remote` prints. -/
def Offers (W : Remote) (d : Desc) (c : Str) : Prop :=
  if W.direct d.url then
    ∃ a name b, W.refs d.url = some (a ++ (name, c) :: b) ∧ Last name d.branch ∧ ∀ x ∈ a, ¬ Last x.1 d.branch
  else ∃ rest, W.lsRemote d.url d.branch (d.env ++ W.extra) = some (c ++ '\t' :: rest) ∧ '\t' ∉ c

/-! ## Nested objects -/

theorem assoc_set (k x : Str) (w : Json N) (l : List (Str × Json N)) :
    assoc x (OMap.insertList (fun _ w => w) k w l) = if x = k then some w else assoc x l := by
  have gen : ∀ (v : Json N) (t : List (Str × Json N)), assoc x ((k, v) :: t) = if x = k then some v else assoc x t := by
    intro v t
    by_cases h : x = k
    · rw [assoc, if_pos h, if_pos h]
    · rw [assoc, if_neg h, if_neg h]
  induction l with
  | nil => exact gen w []
  | cons a t ih =>
    obtain ⟨k', v'⟩ := a
    unfold OMap.insertList
    split
    · exact gen w _
    · split
      · rename_i h
        subst h
        rw [gen w]
        by_cases hx : x = k
        · rw [if_pos hx, if_pos hx]
        · rw [if_neg hx, if_neg hx, assoc, if_neg hx]
      · rename_i h
        rw [assoc, ih]
        by_cases hx : x = k'
        · subst hx
          rw [if_pos rfl, if_neg (Ne.symm h), assoc, if_pos rfl]
        · rw [if_neg hx, assoc, if_neg hx]

theorem get_null {p : List Str} (h : p ≠ []) : get p (.null : Json N) = none := by
  cases p with
  | nil => exact absurd rfl h
  | cons k p => rfl

/-- Neither place is inside the other. -/
def Apart (p q : List Str) : Prop := ¬ p <+: q ∧ ¬ q <+: p

theorem get_assign {v : Json N} : ∀ {q : List Str} {cfg cfg' : Json N}, assign q v cfg = some cfg' →
    get q cfg' = some v ∧ ∀ p, Apart p q → get p cfg' = get p cfg
  | [], cfg, cfg', h => by
    cases h
    exact ⟨rfl, fun p hp => (hp.2 (List.nil_prefix)).elim⟩
  | k :: q, cfg, cfg', h => by
    cases cfg with
    | obj l =>
      unfold assign at h
      obtain ⟨w, h1, rfl⟩ := Option.map_eq_some_iff.1 h
      obtain ⟨g1, g2⟩ := get_assign h1
      refine ⟨?_, fun p hp => ?_⟩
      · rw [get, assoc_set, if_pos rfl, Option.bind_some, g1]
      · cases p with
        | nil => exact (hp.1 (List.nil_prefix)).elim
        | cons k' p =>
          rw [get, assoc_set, get]
          by_cases hk : k' = k
          · subst hk
            have hp' : Apart p q := ⟨fun h => hp.1 ((List.prefix_cons_inj _).2 h), fun h => hp.2 ((List.prefix_cons_inj _).2 h)⟩
            have hne : p ≠ [] := fun e => hp'.1 (e ▸ List.nil_prefix)
            rw [if_pos rfl, Option.bind_some, g2 p hp']
            cases assoc k' l with
            | none => exact get_null hne
            | some u => rfl
          · rw [if_neg hk]
    | null =>
      unfold assign at h
      obtain ⟨w, h1, rfl⟩ := Option.map_eq_some_iff.1 h
      obtain ⟨g1, g2⟩ := get_assign h1
      refine ⟨?_, fun p hp => ?_⟩
      · rw [get, assoc, if_pos rfl, Option.bind_some, g1]
      · cases p with
        | nil => exact (hp.1 (List.nil_prefix)).elim
        | cons k' p =>
          rw [get, assoc]
          by_cases hk : k' = k
          · subst hk
            have hp' : Apart p q := ⟨fun h => hp.1 ((List.prefix_cons_inj _).2 h), fun h => hp.2 ((List.prefix_cons_inj _).2 h)⟩
            have hne : p ≠ [] := fun e => hp'.1 (e ▸ List.nil_prefix)
            rw [if_pos rfl, Option.bind_some, g2 p hp', get_null hne]
            rfl
          · rw [if_neg hk]
            rfl
    | bool => cases h
    | num => cases h
    | str => cases h
    | arr => cases h

/-- Where the description of a repository is. -/
abbrev home (n : Str) : List Str := ["repositories".toList, n, "repository".toList]

theorem apart_place {n m : Str} (h : n ≠ m) : Apart (place n) (place m) := by
  constructor <;>
  · intro hp
    unfold place at hp
    rw [List.prefix_cons_inj, List.cons_prefix_cons] at hp
    first | exact h hp.1 | exact h hp.1.symm

theorem apart_home {n m : Str} (h : n ≠ m) : Apart (home n) (place m) := by
  constructor <;>
  · intro hp
    unfold place at hp
    rw [List.prefix_cons_inj, List.cons_prefix_cons] at hp
    first | exact h hp.1 | exact h hp.1.symm

theorem get_home {cfg : Json N} {n : Str} {d : Json N} : get (home n) cfg = some d ↔ ∃ top repos l, cfg = .obj top ∧
    assoc "repositories".toList top = some (.obj repos) ∧ assoc n repos = some (.obj l) ∧ assoc "repository".toList l = some d := by
  constructor
  · intro h
    cases cfg with
    | obj top =>
      rw [get] at h
      obtain ⟨x, h1, h⟩ := Option.bind_eq_some_iff.1 h
      cases x with
      | obj repos =>
        rw [get] at h
        obtain ⟨y, h2, h⟩ := Option.bind_eq_some_iff.1 h
        cases y with
        | obj l =>
          rw [get] at h
          obtain ⟨z, h3, h⟩ := Option.bind_eq_some_iff.1 h
          cases h
          exact ⟨top, repos, l, rfl, h1, h2, h3⟩
        | _ => cases h
      | _ => cases h
    | _ => cases h
  · rintro ⟨top, repos, l, rfl, h1, h2, h3⟩
    rw [get, h1, Option.bind_some, get, h2, Option.bind_some, get, h3]
    rfl

/-- A commit can be set if and only if the description is an object. -/
theorem assign_place {cfg d v : Json N} {n : Str} (h : get (home n) cfg = some d) (hd : d ≠ .null) :
    (∃ cfg', assign (place n) v cfg = some cfg') ↔ ∃ r, d = .obj r := by
  obtain ⟨top, repos, l, rfl, h1, h2, h3⟩ := get_home.1 h
  have e : assign (place n) v (.obj top) = (assign ["commit".toList] v d).map fun w =>
      .obj (OMap.insertList (fun _ w => w) "repositories".toList (.obj (OMap.insertList (fun _ w => w) n
        (.obj (OMap.insertList (fun _ w => w) "repository".toList w l)) repos)) top) := by
    rw [place, assign, h1, Option.getD_some, assign, h2, Option.getD_some, assign, h3, Option.getD_some]
    cases assign ["commit".toList] v d <;> rfl
  rw [e]
  constructor
  · rintro ⟨cfg', h⟩
    obtain ⟨w, hw, _⟩ := Option.map_eq_some_iff.1 h
    cases d with
    | obj r => exact ⟨r, rfl⟩
    | null => exact absurd rfl hd
    | _ => cases hw
  · rintro ⟨r, rfl⟩
    exact ⟨_, rfl⟩

theorem home_of_place {cfg v : Json N} {n : Str} (h : get (place n) cfg = some v) : ∃ r, get (home n) cfg = some (.obj r) := by
  cases cfg with
  | obj top =>
    rw [place, get] at h
    obtain ⟨x, h1, h⟩ := Option.bind_eq_some_iff.1 h
    cases x with
    | obj repos =>
      rw [get] at h
      obtain ⟨y, h2, h⟩ := Option.bind_eq_some_iff.1 h
      cases y with
      | obj l =>
        rw [get] at h
        obtain ⟨z, h3, h⟩ := Option.bind_eq_some_iff.1 h
        cases z with
        | obj r => exact ⟨r, get_home.2 ⟨top, repos, l, rfl, h1, h2, h3⟩⟩
        | _ => cases h
      | _ => cases h
    | _ => cases h
  | _ => cases h

/-! ## Setting all commits -/

theorem setAll_same : ∀ {l : List (Str × Str)} {cfg cfg' : Json N}, setAll l cfg = some cfg' → ∀ p,
    (∀ x ∈ l, Apart p (place x.1)) → get p cfg' = get p cfg
  | [], cfg, cfg', h, p, _ => by cases h; rfl
  | (n, c) :: l, cfg, cfg', h, p, hp => by
    obtain ⟨cfg₁, h1, h2⟩ := Option.bind_eq_some_iff.1 h
    rw [setAll_same h2 p fun x hx => hp x (List.mem_cons_of_mem _ hx), (get_assign h1).2 p (hp _ List.mem_cons_self)]

theorem setAll_get : ∀ {l : List (Str × Str)} {cfg cfg' : Json N}, setAll l cfg = some cfg' →
    (∀ x ∈ l, ∀ y ∈ l, x.1 = y.1 → x.2 = y.2) → ∀ x ∈ l, get (place x.1) cfg' = some (.str x.2)
  | [], _, _, _, _, _, hx => nomatch hx
  | (n, c) :: l, cfg, cfg', h, hc, x, hx => by
    obtain ⟨cfg₁, h1, h2⟩ := Option.bind_eq_some_iff.1 h
    have ih := setAll_get h2 fun x hx y hy => hc x (List.mem_cons_of_mem _ hx) y (List.mem_cons_of_mem _ hy)
    by_cases hl : ∃ y ∈ l, y.1 = x.1
    · obtain ⟨y, hy, e⟩ := hl
      rw [← e, ih y hy, hc x hx y (List.mem_cons_of_mem _ hy) e.symm]
    · rcases List.mem_cons.1 hx with rfl | hx
      · rw [setAll_same h2 _ fun y hy => apart_place fun e => hl ⟨y, hy, e.symm⟩]
        exact (get_assign h1).1
      · exact absurd ⟨x, hx, rfl⟩ hl

theorem setAll_iff : ∀ {l : List (Str × Str)} {cfg : Json N}, (∀ x ∈ l, ∃ d, d ≠ .null ∧ get (home x.1) cfg = some d) →
    ((∃ cfg', setAll l cfg = some cfg') ↔ ∀ x ∈ l, ∃ r, get (home x.1) cfg = some (.obj r))
  | [], cfg, _ => ⟨fun _ x hx => (nomatch hx), fun _ => ⟨cfg, rfl⟩⟩
  | (n, c) :: l, cfg, h => by
    obtain ⟨d, hd, hn⟩ := h _ List.mem_cons_self
    have ha := assign_place (v := .str c) hn hd
    constructor
    · rintro ⟨cfg', h'⟩
      obtain ⟨cfg₁, h1, h2⟩ := Option.bind_eq_some_iff.1 h'
      obtain ⟨r, rfl⟩ := ha.1 ⟨_, h1⟩
      have step : ∀ x ∈ l, ∃ d, d ≠ .null ∧ get (home x.1) cfg₁ = some d := by
        intro x hx
        by_cases e : x.1 = n
        · obtain ⟨r', hr⟩ := home_of_place (get_assign h1).1
          exact ⟨.obj r', nofun, by rw [e]; exact hr⟩
        · obtain ⟨d, h0, h1'⟩ := h x (List.mem_cons_of_mem _ hx)
          exact ⟨d, h0, by rw [(get_assign h1).2 _ (apart_home e)]; exact h1'⟩
      have ih := (setAll_iff step).1 ⟨_, h2⟩
      intro x hx
      by_cases e : x.1 = n
      · exact ⟨r, by rw [e]; exact hn⟩
      · rcases List.mem_cons.1 hx with rfl | hx
        · exact absurd rfl e
        · obtain ⟨r', hr⟩ := ih x hx
          exact ⟨r', by rw [← (get_assign h1).2 _ (apart_home e)]; exact hr⟩
    · intro hall
      obtain ⟨r, hr⟩ := hall _ List.mem_cons_self
      cases hn.symm.trans hr
      obtain ⟨cfg₁, h1⟩ := ha.2 ⟨r, rfl⟩
      have step : ∀ x ∈ l, ∃ r, get (home x.1) cfg₁ = some (.obj r) := by
        intro x hx
        by_cases e : x.1 = n
        · obtain ⟨r', hr⟩ := home_of_place (get_assign h1).1
          exact ⟨r', by rw [e]; exact hr⟩
        · obtain ⟨r', hr'⟩ := hall x (List.mem_cons_of_mem _ hx)
          exact ⟨r', by rw [(get_assign h1).2 _ (apart_home e)]; exact hr'⟩
      obtain ⟨cfg', h2⟩ := (setAll_iff fun x hx => (step x hx).elim fun r h => ⟨.obj r, nofun, h⟩).2 step
      exact ⟨cfg', Option.bind_eq_some_iff.2 ⟨cfg₁, h1, h2⟩⟩

/-! ## Descriptions and remotes -/

theorem mapM_some {X Y : Type} {f : X → Option Y} : ∀ {l : List X} {l' : List Y},
    l.mapM f = some l' ↔ List.Forall₂ (fun x y => f x = some y) l l'
  | [], l' => by
    rw [List.mapM_nil]
    constructor
    · intro h
      cases h
      exact .nil
    · intro h
      cases h
      rfl
  | x :: l, l' => by
    rw [List.mapM_cons]
    constructor
    · intro h
      obtain ⟨y, h1, h⟩ := Option.bind_eq_some_iff.1 h
      obtain ⟨ys, h2, h⟩ := Option.bind_eq_some_iff.1 h
      cases h
      exact .cons h1 (mapM_some.1 h2)
    · intro h
      cases h with
      | cons h1 h2 => 
        rw [h1, mapM_some.2 h2]
        rfl

theorem envOf_iff {r : List (Str × Json N)} {e : List Str} : envOf r = some e ↔
    (assoc "inherit env".toList r = none ∧ e = []) ∨ assoc "inherit env".toList r = some (.arr (e.map .str)) := by
  unfold envOf
  cases assoc "inherit env".toList r with
  | none =>
    constructor
    · intro h
      cases h
      exact .inl ⟨rfl, rfl⟩
    · rintro (⟨_, rfl⟩ | h)
      · rfl
      · cases h
  | some v =>
    cases v with
    | arr l =>
      dsimp only
      rw [mapM_some]
      constructor
      · intro h
        refine .inr ?_
        congr 2
        induction h with
        | nil => rfl
        | @cons a b l l' h _ ih =>
          rw [List.map_cons, ← ih]
          cases a <;> cases h
          rfl
      · rintro (⟨h, _⟩ | h)
        · cases h
        · injection h with h
          injection h with h
          subst h
          induction e with
          | nil => exact .nil
          | cons a e ih => exact .cons rfl ih
    | _ => exact ⟨(nomatch ·), fun h => h.elim (fun h => (nomatch h.1)) (nomatch ·)⟩

theorem descOf_iff {r : List (Str × Json N)} {d : Desc} : descOf r = some d ↔ Git r d := by
  unfold descOf
  constructor
  · intro h
    split at h
    · rename_i t h1
      split at h
      · rename_i ht
        subst ht
        split at h
        · rename_i u h2
          split at h
          · rename_i b h3
            obtain ⟨e, h4, rfl⟩ := Option.map_eq_some_iff.1 h
            exact ⟨h1, h2, h3, envOf_iff.1 h4⟩
          · cases h
        · cases h
      · cases h
    · cases h
  · rintro ⟨h1, h2, h3, h4⟩
    rw [h1]
    dsimp only
    rw [if_pos rfl, h2]
    dsimp only
    rw [h3]
    dsimp only
    rw [envOf_iff.2 h4]
    rfl

theorem filename_iff (s b : Str) : filename s = b ↔ Last s b := by
  unfold filename Last
  constructor
  · rintro rfl
    have hsplit : s = (s.reverse.dropWhile (· ≠ '/')).reverse ++ (s.reverse.takeWhile (· ≠ '/')).reverse := by
      rw [← List.reverse_append, List.takeWhile_append_dropWhile, List.reverse_reverse]
    refine ⟨fun h => ?_, ?_⟩
    · have := List.all_takeWhile (l := s.reverse) (p := (· ≠ '/'))
      rw [List.all_eq_true] at this
      have := this _ (List.mem_reverse.1 h)
      simp at this
    · cases hd : s.reverse.dropWhile (· ≠ '/') with
      | nil =>
        rw [hd] at hsplit
        exact .inl hsplit
      | cons x t =>
        have hx : x = '/' := by
          have h := List.head?_dropWhile_not (p := fun c : Char => decide (c ≠ '/')) s.reverse
          rw [hd] at h
          simpa using h
        subst hx
        rw [hd, List.reverse_cons] at hsplit
        refine .inr ⟨t.reverse, ?_⟩
        rw [List.append_assoc] at hsplit
        exact hsplit
  · rintro ⟨hb, rfl | ⟨p, rfl⟩⟩
    · have e := List.takeWhile_append_of_pos (p := fun c : Char => decide (c ≠ '/')) (l₁ := s.reverse) (l₂ := []) ?_
      · rw [List.append_nil, List.takeWhile_nil, List.append_nil] at e
        rw [e, List.reverse_reverse]
      intro x hx
      simp only [ne_eq, decide_not, Bool.not_eq_eq_eq_not, Bool.not_true, decide_eq_false_iff_not]
      rintro rfl
      exact hb (List.mem_reverse.1 hx)
    · rw [List.reverse_append, List.reverse_cons, List.append_assoc]
      rw [List.takeWhile_append_of_pos]
      · simp
      · intro x hx
        simp only [ne_eq, decide_not, Bool.not_eq_eq_eq_not, Bool.not_true, decide_eq_false_iff_not]
        rintro rfl
        exact hb (List.mem_reverse.1 hx)

theorem takeWhile_tab {out c : Str} : (if '\t' ∈ out then some (out.takeWhile (· ≠ '\t')) else none) = some c ↔
    ∃ rest, out = c ++ '\t' :: rest ∧ '\t' ∉ c := by
  induction out generalizing c with
  | nil => simp
  | cons a l ih =>
    by_cases ha : a = '\t'
    · subst ha
      rw [if_pos List.mem_cons_self]
      constructor
      · intro h
        cases h
        exact ⟨l, by simp, by simp⟩
      · rintro ⟨rest, e, hn⟩
        cases c with
        | nil => simp
        | cons x c =>
          injection e with e _
          exact absurd (e ▸ List.mem_cons_self) hn
    · rw [List.takeWhile_cons_of_pos (by simpa using ha)]
      constructor
      · intro h
        split at h
        · rename_i hm
          cases h
          have hm : '\t' ∈ l := (List.mem_cons.1 hm).resolve_left (Ne.symm ha)
          obtain ⟨rest, e, hn⟩ := ih.1 (by rw [if_pos hm])
          exact ⟨rest, by rw [List.cons_append, ← e], fun h => (List.mem_cons.1 h).elim (fun h => ha h.symm) hn⟩
        · cases h
      · rintro ⟨rest, e, hn⟩
        cases c with
        | nil =>
          injection e with e _
          exact absurd e ha
        | cons x c =>
          injection e with e1 e2
          subst e1
          have := ih.2 ⟨rest, e2, fun h => hn (List.mem_cons_of_mem _ h)⟩
          split at this
          · rename_i hm
            rw [if_pos (List.mem_cons_of_mem _ hm)]
            injection this with this
            rw [this]
          · cases this

theorem commit_iff {W : Remote} {d : Desc} {c : Str} : commit W d = some c ↔ Offers W d c := by
  unfold commit Offers
  split
  · cases W.refs d.url with
    | none => exact ⟨(nomatch ·), fun ⟨_, _, _, h, _⟩ => (nomatch h)⟩
    | some refs =>
      rw [Option.bind_some]
      constructor
      · intro h
        obtain ⟨⟨name, c'⟩, h1, rfl⟩ := Option.map_eq_some_iff.1 h
        obtain ⟨h2, a, b, rfl, h3⟩ := List.find?_eq_some_iff_append.1 h1
        refine ⟨a, name, b, rfl, (filename_iff _ _).1 (by simpa using h2), fun x hx hl => ?_⟩
        have := h3 x hx
        rw [(filename_iff _ _).2 hl] at this
        simp at this
      · rintro ⟨a, name, b, e, h1, h2⟩
        injection e with e
        refine Option.map_eq_some_iff.2 ⟨(name, c), List.find?_eq_some_iff_append.2 ⟨?_, a, b, e, fun x hx => ?_⟩, rfl⟩
        · simpa using (filename_iff _ _).2 h1
        · have := h2 x hx
          rw [← filename_iff] at this
          simpa using this
  · cases W.lsRemote d.url d.branch (d.env ++ W.extra) with
    | none => exact ⟨(nomatch ·), fun ⟨_, h, _⟩ => (nomatch h)⟩
    | some out =>
      rw [Option.bind_some, takeWhile_tab]
      simp only [Option.some.injEq]

/-! ## Gathering -/

theorem gather_home {cfg : Json N} {top repos : List (Str × Json N)} (h1 : cfg = .obj top)
    (h2 : assoc "repositories".toList top = some (.obj repos)) {n : Str} {d : Desc} (h : gather repos n = some d) :
    ∃ v, v ≠ .null ∧ get (home n) cfg = some v ∧ ∀ r, v = .obj r → Git r d := by
  unfold gather at h
  split at h
  · rename_i l h3
    split at h
    · rename_i v h4
      split at h
      · rename_i r h5
        refine ⟨v, ?_, get_home.2 ⟨top, repos, l, h1, h2, h3, h4⟩, fun r' hr => ?_⟩
        · rintro rfl
          have e : resolve repos (.null : Json N) = some .null := resolve_other fun _ e => nomatch e
          cases e.symm.trans h5
        · subst hr
          have e : resolve repos (.obj r' : Json N) = some (.obj r') := resolve_other fun _ e => nomatch e
          cases e.symm.trans h5
          exact descOf_iff.1 h
      · cases h
    · cases h
  · cases h

theorem gather_own {cfg : Json N} {top repos : List (Str × Json N)} (h1 : cfg = .obj top)
    (h2 : assoc "repositories".toList top = some (.obj repos)) {n : Str} {d : Desc} (h : Own cfg n d) :
    gather repos n = some d := by
  obtain ⟨r, hr, hg⟩ := h
  obtain ⟨top', repos', l, e1, e2, e3, e4⟩ := get_home.1 hr
  cases h1.symm.trans e1
  cases h2.symm.trans e2
  unfold gather
  rw [e3]
  dsimp only
  rw [e4]
  dsimp only
  have e : resolve repos (.obj r : Json N) = some (.obj r) := resolve_other fun _ e => nomatch e
  rw [e]
  exact descOf_iff.2 hg

theorem keyOf_spec {ds : List Desc} {d : Desc} (h : d ∈ ds) :
    keyOf ds d ∈ ds ∧ (keyOf ds d).url = d.url ∧ (keyOf ds d).branch = d.branch := by
  unfold keyOf
  cases hf : ds.find? fun e => e.url = d.url && e.branch = d.branch with
  | none =>
    have := List.find?_eq_none.1 hf d h
    simp at this
  | some e =>
    have h1 := List.find?_some hf
    have h2 := List.mem_of_find?_eq_some hf
    simp only [Bool.and_eq_true, decide_eq_true_eq] at h1
    exact ⟨h2, h1.1, h1.2⟩

theorem Offers.congr {W : Remote} {d d' : Desc} {c : Str} (h1 : d.url = d'.url) (h2 : d.branch = d'.branch)
    (h3 : d.env = d'.env ∨ W.direct d.url = true) (h : Offers W d c) : Offers W d' c := by
  unfold Offers at h ⊢
  rw [← h1, ← h2]
  rcases h3 with h3 | h3
  · rw [← h3]
    exact h
  · rw [if_pos h3] at h ⊢
    exact h

theorem Own.det {cfg : Json N} {n : Str} {d d' : Desc} (h : Own cfg n d) (h' : Own cfg n d') : d = d' := by
  obtain ⟨r, hr, hg⟩ := h
  obtain ⟨r', hr', hg'⟩ := h'
  cases hr.symm.trans hr'
  exact Option.some.inj ((descOf_iff.2 hg).symm.trans (descOf_iff.2 hg'))

theorem forall₂_mem {X Y : Type} {R : X → Y → Prop} {l : List X} {l' : List Y} (h : List.Forall₂ R l l') :
    (∀ x ∈ l, ∃ y ∈ l', R x y ∧ (x, y) ∈ l.zip l') ∧ (∀ y ∈ l', ∃ x ∈ l, R x y) ∧ ∀ z ∈ l.zip l', z.1 ∈ l ∧ R z.1 z.2 := by
  induction h with
  | nil => exact ⟨fun x hx => (nomatch hx), fun x hx => (nomatch hx), fun x hx => (nomatch hx)⟩
  | @cons a b l l' hab _ ih =>
    obtain ⟨i1, i2, i3⟩ := ih
    refine ⟨fun x hx => ?_, fun y hy => ?_, fun z hz => ?_⟩
    · rcases List.mem_cons.1 hx with rfl | hx
      · exact ⟨b, List.mem_cons_self, hab, List.mem_cons_self⟩
      · obtain ⟨y, h1, h2, h3⟩ := i1 x hx
        exact ⟨y, List.mem_cons_of_mem _ h1, h2, List.mem_cons_of_mem _ h3⟩
    · rcases List.mem_cons.1 hy with rfl | hy
      · exact ⟨a, List.mem_cons_self, hab⟩
      · obtain ⟨x, h1, h2⟩ := i2 y hy
        exact ⟨x, List.mem_cons_of_mem _ h1, h2⟩
    · rw [List.zip_cons_cons] at hz
      rcases List.mem_cons.1 hz with rfl | hz
      · exact ⟨List.mem_cons_self, hab⟩
      · exact ⟨List.mem_cons_of_mem _ (i3 z hz).1, (i3 z hz).2⟩

theorem forall₂_bind {X Y Z : Type} {f : X → Option Y} {g : Y → Option Z} {l : List X} {l' : List Y} {l'' : List Z}
    (h : List.Forall₂ (fun x y => f x = some y) l l') (h' : List.Forall₂ (fun y z => g y = some z) l' l'') :
    List.Forall₂ (fun x z => (f x).bind g = some z) l l'' := by
  induction h generalizing l'' with
  | nil => cases h'; exact .nil
  | cons e _ ih =>
    cases h' with
    | cons e' t => exact .cons (by rw [e]; exact e') (ih t)

/-- The commits are determined by the names. -/
theorem update_cases {W : Remote} {names : List Str} {cfg cfg' : Json N} (hn : names ≠ []) (h : update W names cfg = some cfg') :
    ∃ top repos ds cs, cfg = .obj top ∧ assoc "repositories".toList top = some (.obj repos) ∧
      names.mapM (gather repos) = some ds ∧ names.mapM (fun n => (gather repos n).bind fun d => commit W (keyOf ds d)) = some cs ∧
      setAll (names.zip cs) cfg = some cfg' := by
  unfold update at h
  rw [if_neg hn] at h
  split at h
  · rename_i top
    split at h
    · rename_i repos h2
      obtain ⟨ds, h3, h⟩ := Option.bind_eq_some_iff.1 h
      obtain ⟨cs, h4, h⟩ := Option.bind_eq_some_iff.1 h
      refine ⟨top, repos, ds, cs, rfl, h2, h3, ?_, h⟩
      exact mapM_some.2 (forall₂_bind (mapM_some.1 h3) (mapM_some.1 h4))
    · cases h
  · cases h

theorem update_of {W : Remote} {names : List Str} {cfg cfg' : Json N} {top repos : List (Str × Json N)} {ds : List Desc}
    {cs : List Str} (hn : names ≠ []) (h1 : cfg = .obj top) (h2 : assoc "repositories".toList top = some (.obj repos))
    (h3 : names.mapM (gather repos) = some ds) (h4 : ds.mapM (fun d => commit W (keyOf ds d)) = some cs)
    (h5 : setAll (names.zip cs) cfg = some cfg') : update W names cfg = some cfg' := by
  unfold update
  rw [if_neg hn, h1]
  dsimp only
  rw [h2]
  dsimp only
  rw [h3, Option.bind_some, h4, Option.bind_some, ← h1, h5]

/-! ## C112 -/

/-- Repositories with the same branch of the same URL take over the same variables of the environment. -/
def Agree (W : Remote) (names : List Str) (cfg : Json N) : Prop :=
  ∀ n ∈ names, ∀ m ∈ names, ∀ d d', Own cfg n d → Own cfg m d' → d.url = d'.url → d.branch = d'.branch →
    d.env = d'.env ∨ W.direct d.url = true

/-- **C112.** Without names, the configuration is printed as it is. -/
theorem C112_nothing (W : Remote) (cfg : Json N) : update W [] cfg = some cfg := rfl

/-- **C112.** In the configuration printed, everything is as before, except for the commits of the repositories named. -/
theorem C112_same {W : Remote} {names : List Str} {cfg cfg' : Json N} (h : update W names cfg = some cfg') (p : List Str)
    (hp : ∀ n ∈ names, ¬ p <+: ["repositories".toList, n, "repository".toList, "commit".toList] ∧
      ¬ ["repositories".toList, n, "repository".toList, "commit".toList] <+: p) : get p cfg' = get p cfg := by
  by_cases hn : names = []
  · subst hn
    cases h
    rfl
  · obtain ⟨top, repos, ds, cs, _, _, _, h4, h5⟩ := update_cases hn h
    exact setAll_same h5 p fun x hx => hp _ ((forall₂_mem (mapM_some.1 h4)).2.2 x hx).1

/-- **C112.** Each repository named has a description of its own as a git repository, and its commit is set to what is offered for
the branch; the environment taken over may be that of another repository with the same branch of the same URL. -/
theorem C112_commit {W : Remote} {names : List Str} {cfg cfg' : Json N} (h : update W names cfg = some cfg') {n : Str}
    (hn : n ∈ names) : ∃ d m d' c, Own cfg n d ∧ m ∈ names ∧ Own cfg m d' ∧ d'.url = d.url ∧ d'.branch = d.branch ∧
      Offers W d' c ∧ get ["repositories".toList, n, "repository".toList, "commit".toList] cfg' = some (.str c) := by
  have hne : names ≠ [] := List.ne_nil_of_mem hn
  obtain ⟨top, repos, ds, cs, h1, h2, h3, h4, h5⟩ := update_cases hne h
  have f3 := forall₂_mem (mapM_some.1 h3)
  have f4 := forall₂_mem (mapM_some.1 h4)
  have hhome : ∀ x ∈ names.zip cs, ∃ v, v ≠ .null ∧ get (home x.1) cfg = some v := by
    intro x hx
    obtain ⟨d, _, hd, _⟩ := f3.1 x.1 (f4.2.2 x hx).1
    obtain ⟨v, a, b, _⟩ := gather_home h1 h2 hd
    exact ⟨v, a, b⟩
  have hobj := (setAll_iff hhome).1 ⟨_, h5⟩
  have own : ∀ m ∈ names, ∀ d, gather repos m = some d → Own cfg m d := by
    intro m hm d hd
    obtain ⟨v, _, b, c⟩ := gather_home h1 h2 hd
    obtain ⟨y, _, _, hz⟩ := f4.1 m hm
    obtain ⟨r, hr⟩ := hobj _ hz
    cases b.symm.trans hr
    exact ⟨r, hr, c r rfl⟩
  obtain ⟨d, hdm, hd, _⟩ := f3.1 n hn
  obtain ⟨c, _, hc, hz⟩ := f4.1 n hn
  rw [hd, Option.bind_some] at hc
  obtain ⟨k1, k2, k3⟩ := keyOf_spec hdm
  obtain ⟨m, hm, hg⟩ := f3.2.1 _ k1
  refine ⟨d, m, keyOf ds d, c, own n hn d hd, hm, own m hm _ hg, k2, k3, commit_iff.1 hc, ?_⟩
  refine setAll_get h5 (fun x hx y hy e => ?_) _ hz
  have a := (f4.2.2 x hx).2
  have b := (f4.2.2 y hy).2
  rw [e] at a
  exact Option.some.inj (a.symm.trans b)

/-- **C112, in part.** If environments agree, then what is set is what is offered for the description of the repository. -/
theorem C112_own_partial {W : Remote} {names : List Str} {cfg cfg' : Json N} (ha : Agree W names cfg)
    (h : update W names cfg = some cfg') {n : Str} (hn : n ∈ names) : ∃ d c, Own cfg n d ∧ Offers W d c ∧
      get ["repositories".toList, n, "repository".toList, "commit".toList] cfg' = some (.str c) := by
  obtain ⟨d, m, d', c, h1, h2, h3, h4, h5, h6, h7⟩ := C112_commit h hn
  exact ⟨d, c, h1, h6.congr h4 h5 (ha m h2 n hn d' d h3 h1 h4 h5), h7⟩

/-- **C112, in part.** Updating succeeds if and only if each repository named has a description of its own as a git repository, and
something is offered for it; if environments agree. Otherwise there is an error, and nothing is printed. -/
theorem C112_success_partial {W : Remote} {names : List Str} {cfg : Json N} (ha : Agree W names cfg) :
    (∃ cfg', update W names cfg = some cfg') ↔ ∀ n ∈ names, ∃ d c, Own cfg n d ∧ Offers W d c := by
  constructor
  · rintro ⟨cfg', h⟩ n hn
    obtain ⟨d, c, h1, h2, _⟩ := C112_own_partial ha h hn
    exact ⟨d, c, h1, h2⟩
  · intro h
    by_cases hne : names = []
    · subst hne
      exact ⟨cfg, rfl⟩
    · obtain ⟨n₀, hn₀⟩ := List.exists_mem_of_ne_nil _ hne
      obtain ⟨d₀, _, ⟨r₀, hr₀, _⟩, _⟩ := h n₀ hn₀
      obtain ⟨top, repos, _, h1, h2, _⟩ := get_home.1 hr₀
      have hsome : ∀ {X Y : Type} {f : X → Option Y} {l : List X}, (∀ x ∈ l, ∃ y, f x = some y) → ∃ ys, l.mapM f = some ys := by
        intro X Y f l hl
        induction l with
        | nil => exact ⟨[], rfl⟩
        | cons a l ih =>
          obtain ⟨y, hy⟩ := hl a List.mem_cons_self
          obtain ⟨ys, hys⟩ := ih fun x hx => hl x (List.mem_cons_of_mem _ hx)
          exact ⟨y :: ys, mapM_some.2 (.cons hy (mapM_some.1 hys))⟩
      obtain ⟨ds, h3⟩ := hsome (f := gather repos) fun n hn => by
        obtain ⟨d, _, ho, _⟩ := h n hn
        exact ⟨d, gather_own h1 h2 ho⟩
      have f3 := forall₂_mem (mapM_some.1 h3)
      have own : ∀ m ∈ names, ∀ d, gather repos m = some d → Own cfg m d ∧ ∃ c, Offers W d c := by
        intro m hm d hd
        obtain ⟨d', c, ho, hf⟩ := h m hm
        cases hd.symm.trans (gather_own h1 h2 ho)
        exact ⟨ho, c, hf⟩
      obtain ⟨cs, h4⟩ := hsome (f := fun d => commit W (keyOf ds d)) fun d hd => by
        obtain ⟨n, hn, hg⟩ := f3.2.1 d hd
        obtain ⟨o1, c, o2⟩ := own n hn d hg
        obtain ⟨k1, k2, k3⟩ := keyOf_spec hd
        obtain ⟨m, hm, hgm⟩ := f3.2.1 _ k1
        exact ⟨c, commit_iff.2 (o2.congr k2.symm k3.symm (ha n hn m hm _ _ o1 (own m hm _ hgm).1 k2.symm k3.symm))⟩
      have hmem : ∀ x ∈ names.zip cs, x.1 ∈ names := fun x hx => (List.of_mem_zip (a := x.1) (b := x.2) hx).1
      have hobj : ∀ x ∈ names.zip cs, ∃ r, get (home x.1) cfg = some (.obj r) := by
        intro x hx
        obtain ⟨d, _, ⟨r, hr, _⟩, _⟩ := h x.1 (hmem x hx)
        exact ⟨r, hr⟩
      obtain ⟨cfg', h5⟩ := (setAll_iff fun x hx => (hobj x hx).elim fun r h => ⟨.obj r, nofun, h⟩).2 hobj
      exact ⟨cfg', update_of hne h1 h2 h3 h4 h5⟩

/-- **C112, in part.** If no other reference ends with the name of the branch, then what is offered is the head of the branch. -/
theorem C112_head_partial {W : Remote} {d : Desc} {refs : List (Str × Str)} {c₀ c : Str} (hd : W.direct d.url = true)
    (hr : W.refs d.url = some refs) (hb : '/' ∉ d.branch) (h₀ : ("refs/heads/".toList ++ d.branch, c₀) ∈ refs)
    (hu : ∀ x ∈ refs, Last x.1 d.branch → x = ("refs/heads/".toList ++ d.branch, c₀)) : Offers W d c ↔ c = c₀ := by
  have key : ∀ {c}, Offers W d c → c = c₀ := by
    intro c h
    unfold Offers at h
    rw [if_pos hd] at h
    obtain ⟨a, name, b, e, h1, _⟩ := h
    cases hr.symm.trans e
    have := hu (name, c) (by simp) h1
    exact (Prod.mk.inj this).2
  refine ⟨key, ?_⟩
  rintro rfl
  have hl : Last ("refs/heads/".toList ++ d.branch) d.branch := ⟨hb, .inr ⟨"refs/heads".toList, rfl⟩⟩
  cases hf : commit W d with
  | some c' =>
    have := key (commit_iff.1 hf)
    rw [← this]
    exact commit_iff.1 hf
  | none =>
    unfold commit at hf
    rw [if_pos hd, hr, Option.bind_some, Option.map_eq_none_iff, List.find?_eq_none] at hf
    have := hf _ h₀
    rw [(filename_iff _ _).2 hl] at this
    simp at this

end

end Verif.MrUpdate
