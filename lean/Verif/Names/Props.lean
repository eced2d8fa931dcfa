import Verif.Names.Model
import Verif.Path.Props

/-!
# Properties of target names
-/

namespace Verif.Names

open Verif.Path

/-! ## Modules -/

theorem place_module (m : Str) : place ('/' :: m ++ ['/']) = place ('/' :: m) := by
  rw [place_eq, place_eq, names_append_slash]
  rfl

theorem abs_place (m : Str) : (place ('/' :: m)).abs = true := by
  have h1 : ∀ (l : List Str) (p : Place), p.abs = true → (l.foldl Place.follow p).abs = true := by
    intro l
    induction l with
    | nil => exact fun p h => h
    | cons a t ih =>
      intro p h
      apply ih
      unfold Place.follow
      split
      · exact h
      · split
        · split
          · exact h
          · exact h
        · exact h
  rw [place_eq]
  exact h1 _ _ rfl

/-- The normal form of a module consists of the names on the way from the root directory. -/
theorem normalModule_eq (m : Str) : normalModule m = joinWith '/' (place ('/' :: m)).down := by
  have ha := abs_place m
  have hw := wf_place ('/' :: m)
  have hup := hw.root ha
  have hsegs : (place ('/' :: m)).segs = (place ('/' :: m)).down := by
    unfold Place.segs; rw [hup]; rfl
  unfold normalModule
  by_cases hd : (place ('/' :: m)).down = []
  · have hc : canon (place ('/' :: m)) = ['/'] := by
      unfold canon; rw [if_pos ha, hsegs, hd]; rfl
    rcases lexNormal_eq ('/' :: m ++ ['/']) (by simp) with h | h
    · rw [h, place_module, hc, hd]
      decide
    · rw [place_module, hsegs] at h
      exact absurd hd h.2.1
  · have hl : (place ('/' :: m)).segs.getLast? ≠ some dotdot := by
      rw [hsegs]
      intro h
      exact (hw.names _ (List.mem_of_getLast? h)).2.2.2 rfl
    have hnames : names ('/' :: m ++ ['/']) ≠ [] := by
      intro h
      rw [place_eq, ← names_append_slash, h] at hd
      exact hd rfl
    have ht : hasTrail ('/' :: m ++ ['/']) = true := by
      unfold hasTrail
      rw [List.getLast?_concat]
      simp only [beq_self_eq_true, Bool.and_true, Bool.not_eq_true', List.isEmpty_eq_false_iff]
      exact hnames
    rw [lexNormal_trail ht (by rw [place_module, hsegs]; exact hd) (by rw [place_module]; exact hl),
      place_module]
    have hc : canon (place ('/' :: m)) = '/' :: joinWith '/' (place ('/' :: m)).down := by
      unfold canon; rw [if_pos ha, hsegs]
    rw [hc, lexRelative_root _ hw.names hd, parentPath_trail _ (fun a h => (hw.names a h).seg) hd]

/-- A module in normal form: names joined by slashes. -/
def NormalModule (m : Str) : Prop := ∃ l, m = joinWith '/' l ∧ ∀ a ∈ l, ProperName a

theorem normalModule_normal (m : Str) : NormalModule (normalModule m) :=
  ⟨_, normalModule_eq m, (wf_place ('/' :: m)).names⟩

theorem place_join (l : List Str) (h : ∀ a ∈ l, ProperName a) :
    place (joinWith '/' l) = ⟨false, 0, l⟩ ∧ place ('/' :: joinWith '/' l) = ⟨true, 0, l⟩ := by
  have hs : ∀ a ∈ l, Seg a := fun a ha => (h a ha).seg
  rw [place_eq, place_eq, isAbs_join hs, names_cons_slash, names_join hs, foldl_proper h,
    foldl_proper h]
  exact ⟨rfl, rfl⟩

theorem normalModule_of_normal {m : Str} (h : NormalModule m) : normalModule m = m := by
  obtain ⟨l, rfl, hl⟩ := h
  rw [normalModule_eq, (place_join l hl).2]

/-! ## C41: relative references -/

/-- The location reached from a module by following a relative module path. -/
def target (m rel : Str) : Place := Place.walk (place m) rel

theorem place_append (p q : Str) (hp : isAbs p = false) : place (append p q) = target p q := by
  unfold target
  rw [walk_names]
  by_cases hq : isAbs q = true
  · have : append p q = q := by unfold append; rw [if_pos hq]
    rw [this, if_pos hq, place_eq, hq]
  · have hq' : isAbs q = false := by simpa using hq
    rw [if_neg hq, place_rel (isAbs_append hp hq'), names_append hq', List.foldl_append,
      ← place_rel hp]

theorem replicate_dotdot_join (n : Nat) (l : List Str) :
    joinWith '/' (List.replicate (n + 1) dotdot ++ l) =
      if n = 0 ∧ l = [] then dotdot
      else dotdot ++ '/' :: joinWith '/' (List.replicate n dotdot ++ l) := by
  rw [List.replicate_succ, List.cons_append]
  cases h : List.replicate n dotdot ++ l with
  | nil =>
    have h' := List.append_eq_nil_iff.1 h
    have hn : n = 0 := by simpa using h'.1
    rw [if_pos ⟨hn, h'.2⟩]
    rfl
  | cons a t =>
    have : ¬ (n = 0 ∧ l = []) := by
      rintro ⟨rfl, rfl⟩
      cases h
    rw [if_neg this]
    rfl

/-- The test for leaving the workspace. -/
theorem take3 (s : Str) (hs : s ≠ []) :
    (lexNormal s).take 3 = ['.', '.', '/'] ↔
      (place s).up ≠ 0 ∧ ¬ ((place s).up = 1 ∧ (place s).down = []) := by
  have hw := wf_place s
  -- the trailing slash does not matter
  have hcase : ∃ t, lexNormal s = canon (place s) ++ t ∧
      (t = [] ∨ t = ['/'] ∧ (place s).segs ≠ [] ∧ (place s).segs.getLast? ≠ some dotdot) := by
    rcases lexNormal_eq s hs with h | h
    · exact ⟨[], by rw [h, List.append_nil], Or.inl rfl⟩
    · exact ⟨['/'], h.1, Or.inr ⟨rfl, h.2⟩⟩
  obtain ⟨t, e, ht⟩ := hcase
  rw [e]
  generalize place s = p at hw ht ⊢
  obtain ⟨abs, up, down⟩ := p
  unfold canon
  by_cases ha : abs = true
  · subst ha
    have := hw.root rfl
    simp only at this
    subst this
    simp
  · have ha' : abs = false := by simpa using ha
    subst ha'
    simp only [Bool.false_eq_true, if_false]
    cases up with
    | succ n =>
      have hne : (⟨false, n + 1, down⟩ : Place).segs ≠ [] := by simp [Place.segs, List.replicate_succ]
      rw [if_neg hne]
      unfold Place.segs at ht ⊢
      simp only at ht ⊢
      rw [replicate_dotdot_join]
      by_cases hz : n = 0 ∧ down = []
      · rw [if_pos hz]
        obtain ⟨rfl, rfl⟩ := hz
        have : t = [] := by
          rcases ht with h | h
          · exact h
          · exact absurd rfl h.2.2
        subst this
        simp
      · rw [if_neg hz]
        simp only [List.cons_append, List.nil_append, List.take_succ_cons, List.take_zero, true_iff]
        exact ⟨by simp, fun h => hz ⟨by omega, h.2⟩⟩
    | zero =>
      simp only [ne_eq, not_true_eq_false, false_and, iff_false]
      unfold Place.segs
      simp only [List.replicate_zero, List.nil_append]
      intro h
      by_cases hd : down = []
      · subst hd
        have : t = [] := by
          rcases ht with h | h
          · exact h
          · exact absurd rfl h.2.1
        subst this
        cases h
      · rw [if_neg hd] at h
        -- the first name would be `..`
        cases down with
        | nil => exact hd rfl
        | cons a l =>
          have hp := hw.names a List.mem_cons_self
          obtain ⟨u, hu⟩ : ∃ u, joinWith '/' (a :: l) ++ t = a ++ u ∧
              (u = [] ∨ ∃ v, u = '/' :: v) := by
            cases l with
            | nil =>
              refine ⟨t, rfl, ?_⟩
              rcases ht with h | h
              · exact Or.inl h
              · exact Or.inr ⟨[], h.1⟩
            | cons b l =>
              exact ⟨'/' :: (joinWith '/' (b :: l) ++ t), by simp [joinWith], Or.inr ⟨_, rfl⟩⟩
          rw [hu.1] at h
          match a, hp with
          | [], hp => exact hp.2.1 rfl
          | [x], hp =>
            rcases hu.2 with rfl | ⟨v, rfl⟩
            · simp at h
            · cases v with
              | nil => simp at h
              | cons y v =>
                simp at h
          | [x, y], hp =>
            rcases hu.2 with rfl | ⟨v, rfl⟩
            · simp at h
            · simp at h
              obtain ⟨rfl, rfl⟩ := h
              exact hp.2.2.2 rfl
          | x :: y :: z :: r, hp =>
            simp at h
            obtain ⟨-, -, rfl⟩ := h
            exact hp.1 (by simp)

theorem lexNormal_ne_nil {s : Str} (hs : s ≠ []) : lexNormal s ≠ [] := by
  rcases lexNormal_eq s hs with h | h
  · rw [h]; exact canon_ne_nil (wf_place s)
  · rw [h.1]; simp

/-- Where a module name that is not upwards leads. -/
theorem normalModule_lexNormal {s : Str} (hup : (place s).up = 0) :
    normalModule (lexNormal s) = joinWith '/' (place s).down := by
  rw [normalModule_eq]
  by_cases hs : s = []
  · subst hs
    decide
  have hp : place (lexNormal s) = place s := by
    have hc := place_canon (wf_place s)
    rcases lexNormal_eq s hs with h | h
    · rw [h, hc]
    · rw [h.1, place_eq, names_append_slash]
      have : isAbs (canon (place s) ++ ['/']) = isAbs (canon (place s)) := by
        have := canon_ne_nil (wf_place s)
        cases h : canon (place s) with
        | nil => exact absurd h this
        | cons c t => rfl
      rw [this, ← place_eq, hc]
  have hd : (place ('/' :: lexNormal s)).down = (place s).down := by
    rw [← hp]
    rw [← hp] at hup
    rw [place_eq, place_eq] at *
    rw [names_cons_slash]
    -- following the same names from the root directory
    have key : ∀ (l : List Str) (d : List Str) (b : Bool),
        (l.foldl Place.follow ⟨b, 0, d⟩).up = 0 →
        (l.foldl Place.follow ⟨true, 0, d⟩).down = (l.foldl Place.follow ⟨b, 0, d⟩).down := by
      intro l
      induction l with
      | nil => intro d b _; rfl
      | cons a t ih =>
        intro d b h
        rw [List.foldl_cons] at h ⊢
        rw [List.foldl_cons]
        by_cases h1 : a = [] ∨ a = ['.']
        · have e : ∀ c, Place.follow ⟨c, 0, d⟩ a = ⟨c, 0, d⟩ := by
            intro c; unfold Place.follow; rw [if_pos h1]
          rw [e] at h ⊢
          rw [e]
          exact ih d b h
        · by_cases h2 : a = ['.', '.']
          · cases d with
            | nil =>
              have e : Place.follow ⟨true, 0, []⟩ a = ⟨true, 0, []⟩ := by
                unfold Place.follow; rw [if_neg h1, if_pos h2]; rfl
              cases b with
              | true => rfl
              | false =>
                exfalso
                have e' : Place.follow ⟨false, 0, []⟩ a = ⟨false, 1, []⟩ := by
                  unfold Place.follow; rw [if_neg h1, if_pos h2]; rfl
                rw [e'] at h
                -- once above the start, always above
                have up : ∀ (l : List Str) (q : Place), q.up ≠ 0 → (l.foldl Place.follow q).up ≠ 0 := by
                  intro l
                  induction l with
                  | nil => exact fun q h => h
                  | cons x l ih =>
                    intro q hq
                    apply ih
                    unfold Place.follow
                    split
                    · exact hq
                    · split
                      · split
                        · split
                          · exact hq
                          · simp
                        · exact hq
                      · exact hq
                exact up t _ (by simp) h
            | cons x d =>
              have e : ∀ c, Place.follow ⟨c, 0, x :: d⟩ a = ⟨c, 0, (x :: d).dropLast⟩ := by
                intro c; unfold Place.follow; rw [if_neg h1, if_pos h2]
              rw [e] at h ⊢
              rw [e]
              exact ih _ b h
          · have e : ∀ c, Place.follow ⟨c, 0, d⟩ a = ⟨c, 0, d ++ [a]⟩ := by
              intro c; unfold Place.follow; rw [if_neg h1, if_neg h2]
            rw [e] at h ⊢
            rw [e]
            exact ih _ b h
    exact key _ [] (isAbs (lexNormal s)) hup
  rw [hd]

/-- A relative reference that does not lead above the root names the module it leads to; one that leads
above the root is rejected.  Missing: references that lead exactly one level above the root, see
`C41_violation`. -/
theorem C41_relative_partial {N : Type} (bind : Str → Str → Option Str) (cur : Named)
    (hm : NormalModule cur.module) (rel name : Str)
    (hx : ¬ ((target cur.module rel).up = 1 ∧ (target cur.module rel).down = [])) :
    parse bind (.arr [.str "./".toList, .str rel, .str name] : Json N) cur =
      if (target cur.module rel).up = 0 then
        some ⟨cur.repo, joinWith '/' (target cur.module rel).down, name, .target⟩
      else none := by
  obtain ⟨l, e, hl⟩ := hm
  have hab : isAbs cur.module = false := by
    rw [e]; exact isAbs_join (fun a h => (hl a h).seg)
  have hp := place_append cur.module rel hab
  simp only [parse, parse3, string?, if_true, parseRelative]
  by_cases hs : append cur.module rel = []
  · rw [hs] at hp
    have h0 : target cur.module rel = ⟨false, 0, []⟩ := hp.symm
    rw [h0, hs]
    simp [lexNormal, mk, joinWith]
    decide
  · have ht := take3 _ hs
    rw [hp] at ht
    by_cases hup : (target cur.module rel).up = 0
    · rw [if_pos hup, if_pos (fun h => (ht.1 h).1 hup)]
      unfold mk
      rw [normalModule_lexNormal (by rw [hp]; exact hup), hp]
    · rw [if_neg hup, if_neg (fun h => h (ht.2 ⟨hup, hx⟩))]

/-- From module `a`, `../..` leads above the root, but is taken to be the root module. -/
theorem C41_violation :
    parse (fun _ _ => none) (.arr [.str "./".toList, .str "../..".toList, .str "t".toList] : Json Unit)
      ⟨"".toList, "a".toList, "x".toList, .target⟩ = some ⟨"".toList, "".toList, "t".toList, .target⟩ ∧
    (target "a".toList "../..".toList).up = 1 := by
  decide

-- A reference to a sibling module, and one that is rejected.
example : NormalModule "a/b".toList ∧
    parse (fun _ _ => none) (.arr [.str "./".toList, .str "../c".toList, .str "t".toList] : Json Unit)
      ⟨"r".toList, "a/b".toList, "x".toList, .target⟩ =
        some ⟨"r".toList, "a/c".toList, "t".toList, .target⟩ ∧
    parse (fun _ _ => none) (.arr [.str "./".toList, .str "../../../c".toList, .str "t".toList] : Json Unit)
      ⟨"r".toList, "a/b".toList, "x".toList, .target⟩ = none := by
  refine ⟨⟨["a".toList, "b".toList], by decide, ?_⟩, by decide, by decide⟩
  unfold ProperName
  decide

/-! ## C42: serialisation, order -/

theorem toJson_inj {N : Type} {x y : Entity} (h : (x.toJson : Json N) = y.toJson) : x = y := by
  cases x with
  | anonymous r n =>
    cases y with
    | anonymous r' n' =>
      simp only [Entity.toJson, Json.arr.injEq, List.cons.injEq, Json.str.injEq] at h
      rw [h.2.1, h.2.2.1]
    | named y => simp [Entity.toJson] at h
  | named x =>
    cases y with
    | anonymous r n => simp [Entity.toJson] at h
    | named y =>
      obtain ⟨r, m, n, f⟩ := x
      obtain ⟨r', m', n', f'⟩ := y
      cases f <;> cases f' <;> simp [Entity.toJson, Ref.json] at h ⊢ <;> exact h

/-- Different targets have different serialisations. -/
theorem C42_text_injective {N : Type} (numText : N → Str) (hN : Json.NumText numText) (x y : Entity)
    (h : Json.dump numText Json.compact 0 x.toJson = Json.dump numText Json.compact 0 y.toJson) :
    x = y :=
  toJson_inj (Json.dump_inj hN Json.compact_ok h)

/-- The serialisation of a target (not: file, tree, glob, symlink) is parsed as that target wherever
the name of its repository is bound to that repository.  Missing: other references and other contexts,
see `C42_violation_reference` and `C42_violation_context`. -/
theorem C42_roundtrip_partial {N : Type} (bind : Str → Str → Option Str) (cur : Named) (x : Named)
    (hm : NormalModule x.module) (hr : x.ref = .target) (hb : bind cur.repo x.repo = some x.repo) :
    parse bind ((Entity.named x).toJson : Json N) cur = some x := by
  obtain ⟨r, m, n, f⟩ := x
  simp only at hm hr hb
  subst hr
  simp only [Entity.toJson, Ref.json, List.append_nil, List.cons_append, List.nil_append, parse, parse3,
    string?]
  rw [if_neg (by decide), if_pos trivial]
  simp only [parseLocation, string?, hb, mk, normalModule_of_normal hm]

/-- References to files, trees, globs and symlinks cannot be parsed in the form they are printed. -/
theorem C42_violation_reference {N : Type} (bind : Str → Str → Option Str) (cur : Named) (x : Named)
    (hr : x.ref ≠ .target) : parse bind ((Entity.named x).toJson : Json N) cur = none := by
  obtain ⟨r, m, n, f⟩ := x
  cases f
  · exact absurd rfl hr
  all_goals
    simp only [Entity.toJson, Ref.json, List.cons_append, List.nil_append, parse, parse3, string?]
    rw [if_neg (by decide), if_pos trivial]
    rfl

/-- In the printed form of a target the name of the repository is the global one, but it is parsed as
name in the current repository. -/
theorem C42_violation_context :
    ∃ (bind : Str → Str → Option Str) (cur x y : Named), x ≠ y ∧
      parse bind ((Entity.named x).toJson : Json Unit) cur = some y :=
  ⟨fun _ n => if n = "lib".toList then some "other".toList else none, ⟨[], [], [], .target⟩,
    ⟨"lib".toList, "m".toList, "t".toList, .target⟩, ⟨"other".toList, "m".toList, "t".toList, .target⟩,
    by decide, by decide⟩

/-- The documented forms of target names. -/
theorem C42_forms {N : Type} (bind : Str → Str → Option Str) (cur : Named)
    (hm : NormalModule cur.module) (m n loc : Str) :
    parse bind (.str n : Json N) cur = some ⟨cur.repo, cur.module, n, .target⟩ ∧
    parse bind (.arr [.str m, .str n] : Json N) cur =
      some ⟨cur.repo, joinWith '/' (place ('/' :: m)).down, n, .target⟩ ∧
    parse bind (.arr [.str "@".toList, .str loc, .str m, .str n] : Json N) cur =
      (bind cur.repo loc).map (fun r => ⟨r, joinWith '/' (place ('/' :: m)).down, n, .target⟩) ∧
    (∀ p ∈ [("FILE".toList, Ref.file), ("TREE".toList, Ref.tree), ("GLOB".toList, Ref.glob),
        ("SYMLINK".toList, Ref.symlink)],
      parse bind (.arr [.str p.1, .null, .str n] : Json N) cur = some ⟨cur.repo, cur.module, n, p.2⟩) := by
  refine ⟨?_, ?_, ?_, ?_⟩
  · simp only [parse, mk, normalModule_of_normal hm]
  · simp only [parse, parse2, string?, mk, normalModule_eq]
  · simp only [parse, parse3, string?]
    rw [if_neg (by decide), if_pos trivial]
    simp only [parseLocation, string?, mk, normalModule_eq]
    cases bind cur.repo loc <;> rfl
  · intro p hp
    simp only [List.mem_cons, List.not_mem_nil, or_false] at hp
    rcases hp with rfl | rfl | rfl | rfl <;>
      simp only [parse, parse3, string?] <;>
      rw [if_neg (by decide), if_neg (by decide), if_neg (by decide), if_pos (by decide)] <;>
      simp only [parseFS, string?, isNone, if_true, mk, normalModule_of_normal hm] <;> rfl

/-- Parsed names are in normal form, so that comparing them is comparing targets. -/
theorem C42_normal {N : Type} (bind : Str → Str → Option Str) (src : Json N) (cur x : Named)
    (h : parse bind src cur = some x) : NormalModule x.module := by
  have key : ∀ r m n f, mk r m n f = x → NormalModule x.module := by
    intro r m n f e
    rw [← e]
    exact normalModule_normal m
  unfold parse at h
  split at h
  · exact key _ _ _ _ (Option.some.inj h)
  · split at h
    · unfold parse2 at h
      split at h
      · exact key _ _ _ _ (Option.some.inj h)
      · cases h
    · unfold parse3 at h
      split at h
      · cases h
      · split at h
        · unfold parseRelative at h
          split at h
          · split at h
            · simp only at h
              split at h
              · exact key _ _ _ _ (Option.some.inj h)
              · cases h
            · cases h
          · cases h
        · split at h
          · unfold parseLocation at h
            split at h
            · split at h
              · split at h
                · exact key _ _ _ _ (Option.some.inj h)
                · cases h
              · cases h
            · cases h
          · split at h
            · cases h
            · split at h
              · unfold parseFS at h
                split at h
                · split at h
                  · cases h
                  · split at h
                    · exact key _ _ _ _ (Option.some.inj h)
                    · split at h
                      · split at h
                        · exact key _ _ _ _ (Option.some.inj h)
                        · cases h
                      · cases h
                · cases h
              · cases h
    · cases h
  · cases h

theorem value_inj {a b : Ref} (h : a.value = b.value) : a = b := by
  cases a <;> cases b <;> first | rfl | cases h

/-- Names are compared by a strict total order compatible with equality. -/
theorem C42_order :
    (∀ x : Named, x.lt x = false) ∧
    (∀ x y z : Named, x.lt y = true → y.lt z = true → x.lt z = true) ∧
    (∀ x y : Named, x ≠ y → x.lt y = true ∨ y.lt x = true) := by
  have hiff : ∀ x y : Named, x.lt y = true ↔
      x.repo < y.repo ∨ x.repo = y.repo ∧ (x.module < y.module ∨ x.module = y.module ∧
        (x.name < y.name ∨ x.name = y.name ∧ x.ref.value < y.ref.value)) := by
    intro x y
    unfold Named.lt
    by_cases h1 : x.repo = y.repo
    · rw [if_neg (by simpa using h1)]
      by_cases h2 : x.module = y.module
      · rw [if_neg (by simpa using h2)]
        by_cases h3 : x.name = y.name
        · rw [if_neg (by simpa using h3)]
          simp [h1, h2, h3]
        · rw [if_pos h3]
          simp [h1, h2, h3]
      · rw [if_pos h2]
        simp [h1, h2]
    · rw [if_pos h1]
      simp [h1]
  refine ⟨?_, ?_, ?_⟩
  · intro x
    rw [Bool.eq_false_iff, ne_eq, hiff]
    simp
  · intro x y z
    rw [hiff, hiff, hiff]
    rintro (h1 | ⟨h1, h2 | ⟨h2, h3 | ⟨h3, h4⟩⟩⟩) (k1 | ⟨k1, k2 | ⟨k2, k3 | ⟨k3, k4⟩⟩⟩)
    · exact Or.inl (lt_trans h1 k1)
    · exact Or.inl (k1 ▸ h1)
    · exact Or.inl (k1 ▸ h1)
    · exact Or.inl (k1 ▸ h1)
    · exact Or.inl (h1 ▸ k1)
    · exact Or.inr ⟨h1.trans k1, Or.inl (lt_trans h2 k2)⟩
    · exact Or.inr ⟨h1.trans k1, Or.inl (k2 ▸ h2)⟩
    · exact Or.inr ⟨h1.trans k1, Or.inl (k2 ▸ h2)⟩
    · exact Or.inl (h1 ▸ k1)
    · exact Or.inr ⟨h1.trans k1, Or.inl (h2 ▸ k2)⟩
    · exact Or.inr ⟨h1.trans k1, Or.inr ⟨h2.trans k2, Or.inl (lt_trans h3 k3)⟩⟩
    · exact Or.inr ⟨h1.trans k1, Or.inr ⟨h2.trans k2, Or.inl (k3 ▸ h3)⟩⟩
    · exact Or.inl (h1 ▸ k1)
    · exact Or.inr ⟨h1.trans k1, Or.inl (h2 ▸ k2)⟩
    · exact Or.inr ⟨h1.trans k1, Or.inr ⟨h2.trans k2, Or.inl (h3 ▸ k3)⟩⟩
    · exact Or.inr ⟨h1.trans k1, Or.inr ⟨h2.trans k2, Or.inr ⟨h3.trans k3, lt_trans h4 k4⟩⟩⟩
  · intro x y hne
    rw [hiff, hiff]
    rcases lt_trichotomy x.repo y.repo with h | h | h
    · exact Or.inl (Or.inl h)
    · rcases lt_trichotomy x.module y.module with h2 | h2 | h2
      · exact Or.inl (Or.inr ⟨h, Or.inl h2⟩)
      · rcases lt_trichotomy x.name y.name with h3 | h3 | h3
        · exact Or.inl (Or.inr ⟨h, Or.inr ⟨h2, Or.inl h3⟩⟩)
        · rcases lt_trichotomy x.ref.value y.ref.value with h4 | h4 | h4
          · exact Or.inl (Or.inr ⟨h, Or.inr ⟨h2, Or.inr ⟨h3, h4⟩⟩⟩)
          · refine absurd ?_ hne
            obtain ⟨r, m, n, f⟩ := x
            obtain ⟨r', m', n', f'⟩ := y
            simp only at h h2 h3 h4
            rw [h, h2, h3, value_inj h4]
          · exact Or.inr (Or.inr ⟨h.symm, Or.inr ⟨h2.symm, Or.inr ⟨h3.symm, h4⟩⟩⟩)
        · exact Or.inr (Or.inr ⟨h.symm, Or.inr ⟨h2.symm, Or.inl h3⟩⟩)
      · exact Or.inr (Or.inr ⟨h.symm, Or.inl h2⟩)
    · exact Or.inr (Or.inl h)

-- A context meeting the hypotheses of the round trip, and the forms in use.
example : parse (fun _ n => some n)
      ((Entity.named ⟨"lib".toList, "m/n".toList, "t".toList, .target⟩).toJson : Json Unit)
      ⟨"r".toList, "a".toList, "x".toList, .target⟩ =
        some ⟨"lib".toList, "m/n".toList, "t".toList, .target⟩ ∧
    parse (fun _ _ => none) (.arr [.str "x/../y//".toList, .str "t".toList] : Json Unit)
      ⟨"r".toList, "a".toList, "x".toList, .target⟩ = some ⟨"r".toList, "y".toList, "t".toList, .target⟩ := by
  decide

-- Decimal notation of naturals meets the assumption on the notation of numbers in a trivial instance.
example : Json.NumText (fun _ : Unit => "0".toList) :=
  ⟨fun _ _ _ => rfl, by intro n c h; simp at h; subst h; decide, fun _ => ⟨'0', [], rfl, by decide⟩⟩

end Verif.Names
