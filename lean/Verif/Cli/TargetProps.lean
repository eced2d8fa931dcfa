import Verif.Cli.Target

/-!
# C114: the target asked for
-/

namespace Verif.Cli

open Verif Verif.Path

/-- `m` is the longest beginning of `l` with a property. -/
def Closest (P : List Str → Prop) (l m : List Str) : Prop := m <+: l ∧ P m ∧ ∀ m', m' <+: l → P m' → m' <+: m

theorem findRev_spec (has : List Str → Bool) : ∀ r : List Str,
    (∀ m, findRev has r = some m ↔ Closest (fun d => has d = true) r.reverse m) ∧
    (findRev has r = none ↔ ∀ m, m <+: r.reverse → has m = false)
  | [] => by
    have e : ∀ m : List Str, m <+: [] ↔ m = [] := fun m => List.prefix_nil
    constructor
    · intro m
      rw [findRev, List.reverse_nil]
      by_cases h : has [] = true
      · rw [if_pos h]
        constructor
        · intro e'; cases e'; exact ⟨List.prefix_rfl, h, fun m' hm _ => hm⟩
        · rintro ⟨h1, -, -⟩; rw [(e m).mp h1]
      · rw [if_neg h]
        refine ⟨fun h => (nomatch h), ?_⟩
        rintro ⟨h1, h2, -⟩
        rw [(e m).mp h1] at h2
        exact absurd h2 h
    · rw [findRev, List.reverse_nil]
      by_cases h : has [] = true
      · rw [if_pos h]
        refine ⟨fun h => (nomatch h), fun h' => ?_⟩
        rw [h' [] List.prefix_rfl] at h
        exact nomatch h
      · rw [if_neg h]
        refine ⟨fun _ m hm => ?_, fun _ => rfl⟩
        rw [(e m).mp hm]; simpa using h
  | a :: t => by
    obtain ⟨ih1, ih2⟩ := findRev_spec has t
    have e : ∀ m : List Str, m <+: (a :: t).reverse ↔ m = (a :: t).reverse ∨ m <+: t.reverse := by
      intro m
      rw [List.reverse_cons, List.prefix_concat_iff]
    by_cases h : has (a :: t).reverse = true
    · refine ⟨fun m => ?_, ?_⟩
      · rw [findRev, if_pos h]
        constructor
        · intro e'; cases e'; exact ⟨List.prefix_rfl, h, fun m' hm _ => hm⟩
        · rintro ⟨h1, -, h3⟩
          have := h3 _ List.prefix_rfl h
          rw [List.IsPrefix.eq_of_length_le this h1.length_le]
      · rw [findRev, if_pos h]
        refine ⟨fun h => (nomatch h), fun h' => ?_⟩
        rw [h' _ List.prefix_rfl] at h
        exact nomatch h
    · refine ⟨fun m => ?_, ?_⟩
      · rw [findRev, if_neg h, ih1]
        constructor
        · rintro ⟨h1, h2, h3⟩
          refine ⟨(e m).mpr (.inr h1), h2, fun m' hm hp => ?_⟩
          rcases (e m').mp hm with rfl | hm
          · exact absurd hp h
          · exact h3 m' hm hp
        · rintro ⟨h1, h2, h3⟩
          refine ⟨?_, h2, fun m' hm hp => h3 m' ((e m').mpr (.inr hm)) hp⟩
          rcases (e m).mp h1 with rfl | hm
          · exact absurd h2 h
          · exact hm
      · rw [findRev, if_neg h, ih2]
        refine ⟨fun hx m hm => ?_, fun hx m hm => hx m ((e m).mpr (.inr hm))⟩
        rcases (e m).mp hm with rfl | hm
        · simpa using h
        · exact hx m hm

theorem findRoot_spec (l : List Str) (has : List Str → Bool) :
    (∀ m, findRoot l has = some m ↔ Closest (fun d => has d = true) l m) ∧
    (findRoot l has = none ↔ ∀ m, m <+: l → has m = false) := by
  have h := findRev_spec has l.reverse
  rw [List.reverse_reverse] at h
  exact h

/-- Names of directories. -/
def Proper (l : List Str) : Prop := ∀ a ∈ l, ProperName a

theorem clean_proper {l : List Str} (h : Proper l) : clean l = l :=
  List.filter_eq_self.mpr fun a ha => by simpa using (h a ha).2.2.1

theorem proximate_below (ws s : List Str) : proximate (ws ++ s) ws = if s = [] then [".".toList] else s := by
  induction ws with
  | nil =>
    cases s with
    | nil => rw [if_pos rfl]; rfl
    | cons a t => rw [if_neg (by simp)]; rfl
  | cons a t ih => rw [List.cons_append, proximate, if_pos rfl, ih]

theorem proximate_not : ∀ {c ws : List Str}, ¬ ws <+: c → (proximate c ws).head? = some "..".toList
  | _, [], h => absurd (List.nil_prefix) h
  | [], b :: base, _ => rfl
  | a :: p, b :: base, h => by
    rw [proximate]
    split
    · next e => exact proximate_not fun h' => h (by rw [e]; exact List.cons_prefix_cons.mpr ⟨rfl, h'⟩)
    · rfl

/-- The search from `.` gives the same as that from the empty path. -/
theorem search_spec {has : List Str → Bool} {s : List Str} (hs : Proper s) :
    (∀ m, Closest (fun d => has d = true) s m ↔
      ∃ r, findRoot (if s = [] then [".".toList] else s) (fun d => has (clean d)) = some r ∧ clean r = m) ∧
    (findRoot (if s = [] then [".".toList] else s) (fun d => has (clean d)) = none ↔ ∀ m, m <+: s → has m = false) := by
  by_cases e : s = []
  · subst e
    rw [if_pos rfl]
    have c1 : clean [".".toList] = [] := by decide
    have c0 : clean [] = [] := rfl
    have hf : findRoot [".".toList] (fun d => has (clean d)) = if has [] = true then some [".".toList] else none := by
      simp only [findRoot, List.reverse_singleton, findRev, c1, c0]
      by_cases h : has [] = true <;> simp [h]
    rw [hf]
    by_cases h : has [] = true
    · rw [if_pos h]
      refine ⟨fun m => ⟨?_, ?_⟩, ?_⟩
      · rintro ⟨h1, -, -⟩
        exact ⟨_, rfl, by rw [c1, List.prefix_nil.mp h1]⟩
      · rintro ⟨r, e, rfl⟩
        cases e
        rw [c1]
        exact ⟨List.prefix_rfl, h, fun m' hm _ => hm⟩
      · refine ⟨fun h => (nomatch h), fun h' => ?_⟩
        rw [h' [] List.prefix_rfl] at h; exact nomatch h
    · rw [if_neg h]
      refine ⟨fun m => ⟨?_, ?_⟩, ?_⟩
      · rintro ⟨h1, h2, -⟩
        rw [List.prefix_nil.mp h1] at h2; exact absurd h2 h
      · rintro ⟨r, e, -⟩; exact nomatch e
      · refine ⟨fun _ m hm => ?_, fun _ => rfl⟩
        rw [List.prefix_nil.mp hm]; simpa using h
  · rw [if_neg e]
    have hc : ∀ m, m <+: s → clean m = m := fun m hm => clean_proper fun a ha => hs a (hm.subset ha)
    obtain ⟨h1, h2⟩ := findRoot_spec s (fun d => has (clean d))
    refine ⟨fun m => ⟨?_, ?_⟩, ?_⟩
    · rintro ⟨a, b, c⟩
      refine ⟨m, (h1 m).mpr ⟨a, by show has (clean m) = true; rw [hc m a]; exact b, fun m' hm hp => c m' hm (by
        change has (clean m') = true at hp; rw [hc m' hm] at hp; exact hp)⟩, hc m a⟩
    · rintro ⟨r, hr, rfl⟩
      obtain ⟨a, b, c⟩ := (h1 r).mp hr
      rw [hc r a] at b ⊢
      exact ⟨a, b, fun m' hm hp => c m' hm (by show has (clean m') = true; rw [hc m' hm]; exact hp)⟩
    · rw [h2]
      exact forall_congr' fun m => forall_congr' fun hm => by rw [hc m hm]

/-- **C114.** Without an explicit workspace, the workspace is the closest directory, from the working directory upwards, that has an
entry `ROOT`, `WORKSPACE`, or `.git`; there is an error if and only if there is none. -/
theorem C114_workspace (entry : List Str → Str → Bool) {cwd : List Str} (hc : Proper cwd) :
    (∀ w, workspace entry (some cwd) = some w ↔
      Closest (fun d => entry d "ROOT".toList ∨ entry d "WORKSPACE".toList ∨ entry d ".git".toList) cwd w) ∧
    (workspace entry (some cwd) = none ↔ ∀ d, d <+: cwd → ∀ m ∈ ["ROOT".toList, "WORKSPACE".toList, ".git".toList], entry d m = false) := by
  have hp := proximate_below [] cwd
  rw [List.nil_append] at hp
  obtain ⟨h1, h2⟩ := search_spec (has := fun d => markers.any (entry d)) hc
  have hm : ∀ d, markers.any (entry d) = true ↔ (entry d "ROOT".toList ∨ entry d "WORKSPACE".toList ∨ entry d ".git".toList) := by
    intro d
    simp only [markers, List.any_cons, List.any_nil, Bool.or_false, Bool.or_eq_true]
    constructor
    · rintro (h | h | h)
      · exact .inr (.inr h)
      · exact .inl h
      · exact .inr (.inl h)
    · rintro (h | h | h)
      · exact .inr (.inl h)
      · exact .inr (.inr h)
      · exact .inl h
  have hw : workspace entry (some cwd) =
      (findRoot (if cwd = [] then [".".toList] else cwd) fun d => markers.any (entry (clean d))).map clean := by
    rw [workspace, Option.bind_some, hp]
  rw [hw]
  constructor
  · intro w
    rw [Option.map_eq_some_iff, ← h1 w]
    simp only [Closest, hm]
  · rw [Option.map_eq_none_iff, h2]
    refine forall_congr' fun d => forall_congr' fun _ => ?_
    rw [Bool.eq_false_iff, ne_eq, hm]
    simp only [List.forall_mem_cons, List.not_mem_nil, false_imp_iff, implies_true, and_true, Bool.eq_false_iff, ne_eq]
    tauto

/-! ## The current module -/

section
variable {N : Type}

/-- There is something with the name of target files in a directory of the target root. -/
def HasTargets (c : Call N) (d : List Str) : Prop := ∃ look, c.root = some look ∧ look (d ++ [c.fileName]) ≠ .missing

/-- The module that belongs to the working directory: the closest directory with target file, from the working directory upwards to
the workspace; the top-level module if there is none or the working directory is not in the workspace. -/
def Current (c : Call N) (m : List Str) : Prop :=
  (∃ ws s, c.workspace = some ws ∧ c.cwd = some (ws ++ s) ∧ Closest (HasTargets c) s m) ∨
  m = [] ∧ ∀ ws s, c.workspace = some ws → c.cwd = some (ws ++ s) → ∀ d, d <+: s → ¬ HasTargets c d

theorem there_iff (e : Entry N) : e.there = true ↔ e ≠ .missing := by cases e <;> simp [Entry.there]

/-- The names of the working directory are names of directories. -/
def Call.Normal (c : Call N) : Prop := ∀ d, c.cwd = some d → Proper d

theorem current_exists {c : Call N} (hn : c.Normal) :
    ∃ m, Current c m ∧ clean (currentModule c) = m ∧ Proper m ∧ (currentModule c = m ∨ currentModule c = [".".toList] ∧ m = []) := by
  have nothing : (∀ ws s, c.workspace = some ws → c.cwd = some (ws ++ s) → ∀ d, d <+: s → ¬ HasTargets c d) →
      currentModule c = [".".toList] → ∃ m, Current c m ∧ clean (currentModule c) = m ∧ Proper m ∧
        (currentModule c = m ∨ currentModule c = [".".toList] ∧ m = []) :=
    fun h e => ⟨[], .inr ⟨rfl, h⟩, by rw [e]; decide, (fun _ h => nomatch h), .inr ⟨e, rfl⟩⟩
  cases hws : c.workspace with
  | none =>
    refine nothing (fun ws s h => ?_) (by rw [currentModule, hws])
    rw [hws] at h; exact nomatch h
  | some ws =>
    cases hcw : c.cwd with
    | none =>
      refine nothing (fun ws s _ h => ?_) (by rw [currentModule, hws, hcw])
      rw [hcw] at h; exact nomatch h
    | some cwd =>
      by_cases hp : ws <+: cwd
      · obtain ⟨s, rfl⟩ := hp
        have hs : Proper s := fun a ha => hn _ hcw a (List.mem_append_right _ ha)
        let has : List Str → Bool := fun d => match c.root with
          | some look => (look (d ++ [c.fileName])).there
          | none => false
        have hhas : ∀ d, has d = true ↔ HasTargets c d := by
          intro d
          show (match c.root with
            | some look => (look (d ++ [c.fileName])).there
            | none => false) = true ↔ ∃ look, c.root = some look ∧ look (d ++ [c.fileName]) ≠ .missing
          cases c.root with
          | none => simp
          | some look => simp [there_iff]
        have hd : ¬ (if s = [] then [".".toList] else s).head? = some "..".toList := by
          by_cases e : s = []
          · rw [if_pos e]; decide
          · rw [if_neg e]
            intro h
            exact (hs _ (List.mem_of_head? h)).2.2.2 rfl
        have hm : currentModule c =
            (findRoot (if s = [] then [".".toList] else s) fun d => has (clean d)).getD [".".toList] := by
          rw [currentModule, hws, hcw]
          dsimp only
          rw [proximate_below, if_neg hd]
          rfl
        obtain ⟨h1, h2⟩ := search_spec (has := has) hs
        cases hf : findRoot (if s = [] then [".".toList] else s) fun d => has (clean d) with
        | none =>
          refine nothing (fun ws' s' e1 e2 d hd hx => ?_) (by rw [hm, hf]; rfl)
          rw [hws] at e1
          cases e1
          rw [hcw] at e2
          have e3 := List.append_cancel_left (Option.some.inj e2)
          subst e3
          have := h2.mp hf d hd
          rw [(hhas d).mpr hx] at this
          exact nomatch this
        | some r =>
          rw [hf] at hm
          have hr : currentModule c = r := hm
          have hcl := (h1 (clean r)).mpr ⟨r, hf, rfl⟩
          have hcl' : Closest (HasTargets c) s (clean r) := by
            refine ⟨hcl.1, (hhas _).mp hcl.2.1, fun m' h h' => hcl.2.2 m' h ((hhas _).mpr h')⟩
          refine ⟨clean r, .inl ⟨ws, s, hws, hcw, hcl'⟩, by rw [hr], fun a ha => hs a (hcl.1.subset ha), ?_⟩
          rw [hr]
          by_cases e : s = []
          · subst e
            have e0 : clean r = [] := List.prefix_nil.mp hcl.1
            have hpre := ((findRoot_spec _ _).1 r).mp hf
            rw [if_pos rfl] at hpre
            have : r = [] ∨ r = [".".toList] := by
              have h := hpre.1
              cases r with
              | nil => exact .inl rfl
              | cons a t =>
                obtain ⟨rfl, h2⟩ := List.cons_prefix_cons.mp h
                rw [List.prefix_nil.mp h2]; exact .inr rfl
            rcases this with rfl | rfl
            · exact .inl rfl
            · exact .inr ⟨rfl, e0⟩
          · have hpre := ((findRoot_spec _ _).1 r).mp hf
            rw [if_neg e] at hpre
            exact .inl (clean_proper fun a ha => hs a (hpre.1.subset ha)).symm
      · refine nothing (fun ws' s' e1 e2 => ?_) ?_
        · rw [hws] at e1; cases e1
          rw [hcw] at e2
          exact absurd ⟨s', (Option.some.inj e2).symm⟩ hp
        · rw [currentModule, hws, hcw]
          dsimp only
          rw [if_pos (proximate_not hp)]

theorem current_unique {c : Call N} {m m' : List Str} (h : Current c m) (h' : Current c m') : m = m' := by
  rcases h with ⟨ws, s, e1, e2, h⟩ | ⟨rfl, h⟩
  · rcases h' with ⟨ws', s', e1', e2', h'⟩ | ⟨-, h'⟩
    · rw [e1] at e1'; cases e1'
      rw [e2] at e2'
      have := List.append_cancel_left (Option.some.inj e2')
      subst this
      have a := h.2.2 _ h'.1 h'.2.1
      have b := h'.2.2 _ h.1 h.2.1
      exact List.IsPrefix.eq_of_length_le b a.length_le
    · exact absurd h.2.1 (h' ws s e1 e2 m h.1)
  · rcases h' with ⟨ws', s', e1', e2', h'⟩ | ⟨rfl, -⟩
    · exact absurd h'.2.1 (h ws' s' e1' e2' m' h'.1)
    · rfl

theorem current_mk {c : Call N} (hn : c.Normal) {m : List Str} (hm : Current c m) (name : Str) :
    Names.mk c.repo (joinWith '/' (currentModule c)) name .target = ⟨c.repo, joinWith '/' m, name, .target⟩ ∧
    clean (currentModule c) = m := by
  obtain ⟨m', h1, h2, h3, h4⟩ := current_exists hn
  have := current_unique hm h1
  subst this
  refine ⟨?_, h2⟩
  rw [Names.mk]
  congr 1
  rcases h4 with e | ⟨e, rfl⟩
  · rw [e]; exact Names.normalModule_of_normal ⟨m, rfl, h3⟩
  · rw [e]; decide +kernel

/-! ## The configuration -/

/-- The value of a variable in maps laid over each other: that of the last one that has it. -/
def Overlay (layers : List (List (Str × Json N))) (x : Str) (v : Json N) : Prop :=
  ∃ front l back, layers = front ++ l :: back ∧ assoc x l = some v ∧ ∀ l' ∈ back, assoc x l' = none

/-- The maps given: configuration file and definitions. -/
def Layers (c : Call N) (layers : List (List (Str × Json N))) : Prop :=
  ∃ first rest, layers = first :: rest ∧ (c.config = none ∧ first = [] ∨ c.config = some (some (.obj first))) ∧
    c.defines = rest.map fun l => some (.obj l)

theorem assoc_append (x : Str) (l l' : List (Str × Json N)) : assoc x (l ++ l') = (assoc x l).or (assoc x l') := by
  induction l with
  | nil => rfl
  | cons p t ih =>
    obtain ⟨k, v⟩ := p
    rw [List.cons_append, assoc, assoc]
    by_cases e : x = k
    · rw [if_pos e, if_pos e]; rfl
    · rw [if_neg e, if_neg e, ih]

theorem overlay_concat {layers : List (List (Str × Json N))} {l : List (Str × Json N)} {x : Str} {v : Json N} :
    Overlay (layers ++ [l]) x v ↔ assoc x l = some v ∨ assoc x l = none ∧ Overlay layers x v := by
  constructor
  · rintro ⟨front, l', back, e, h1, h2⟩
    rcases List.eq_nil_or_concat back with rfl | ⟨b, z, rfl⟩
    · have := List.append_inj' e rfl
      obtain ⟨-, e2⟩ := this
      cases e2
      exact .inl h1
    · rw [List.concat_eq_append] at e h2
      have e' : layers ++ [l] = (front ++ l' :: b) ++ [z] := by rw [e]; simp
      obtain ⟨e1, e2⟩ := List.append_inj' e' rfl
      cases e2
      exact .inr ⟨h2 l (by simp), front, l', b, e1, h1, fun y hy => h2 y (by simp [hy])⟩
  · rintro (h | ⟨h, front, l', back, rfl, h1, h2⟩)
    · exact ⟨layers, l, [], rfl, h, fun _ h => nomatch h⟩
    · refine ⟨front, l', back ++ [l], by simp, h1, fun y hy => ?_⟩
      rcases List.mem_append.mp hy with hy | hy
      · exact h2 y hy
      · rw [List.mem_singleton.mp hy]; exact h

theorem foldl_none (ds : List (Option (Json N))) :
    ds.foldl addDefine (none : Option (List (Str × Json N))) = none := by
  induction ds with
  | nil => rfl
  | cons d t ih => rw [List.foldl_cons]; exact ih

theorem foldl_layers : ∀ (rest done : List (List (Str × Json N))) (cfg : List (Str × Json N)),
    (∀ x v, assoc x cfg = some v ↔ Overlay done x v) →
    ∃ r, (rest.map fun l => (some (.obj l) : Option (Json N))).foldl addDefine (some cfg) = some r ∧ ∀ x v, assoc x r = some v ↔ Overlay (done ++ rest) x v
  | [], done, cfg, h => ⟨cfg, rfl, by simpa using h⟩
  | l :: t, done, cfg, h => by
    obtain ⟨r, h1, h2⟩ := foldl_layers t (done ++ [l]) (l ++ cfg) (fun x v => by
      rw [overlay_concat, assoc_append, ← h]
      cases assoc x l <;> simp)
    refine ⟨r, by rw [List.map_cons, List.foldl_cons]; exact h1, fun x v => ?_⟩
    rw [h2, List.append_assoc]; rfl

/-- **C114.** If configuration file and definitions are maps, then the value of a variable is that in the last of them that has it;
otherwise there is an error. -/
theorem C114_config (c : Call N) :
    (∀ layers, Layers c layers → ∃ cfg, readConfiguration c = some cfg ∧ ∀ x v, assoc x cfg = some v ↔ Overlay layers x v) ∧
    ((∀ layers, ¬ Layers c layers) → readConfiguration c = none) := by
  constructor
  · rintro layers ⟨first, rest, rfl, hf, hr⟩
    rw [readConfiguration, hr]
    have hs : configStart c.config = some first := by
      rcases hf with ⟨e, rfl⟩ | e <;> rw [e] <;> rfl
    rw [hs]
    obtain ⟨r, h1, h2⟩ := foldl_layers rest [first] first (fun x v => by
      constructor
      · intro h; exact ⟨[], first, [], rfl, h, fun _ h => nomatch h⟩
      · rintro ⟨f, l, b, e, h, -⟩
        cases f with
        | nil => cases e; exact h
        | cons a t => cases t <;> exact nomatch (List.cons.inj e).2)
    exact ⟨r, h1, h2⟩
  · intro hno
    have defs : ∀ (ds : List (Option (Json N))) (s : Option (List (Str × Json N))),
        (∀ rest : List (List (Str × Json N)), ds ≠ rest.map fun l => some (.obj l)) →
        ds.foldl addDefine s = none := by
      intro ds
      induction ds with
      | nil => intro s h; exact absurd rfl (h [])
      | cons d t ih =>
        intro s h
        rw [List.foldl_cons]
        cases s with
        | none => exact foldl_none t
        | some cfg =>
          by_cases hd : ∃ l, d = some (.obj l)
          · obtain ⟨l, rfl⟩ := hd
            exact ih _ fun rest e => h (l :: rest) (by rw [e]; rfl)
          · have : addDefine (some cfg) d = none := by
              cases d with
              | none => rfl
              | some j =>
                cases j with
                | obj l => exact absurd ⟨l, rfl⟩ hd
                | _ => rfl
            rw [this]; exact foldl_none t
    rw [readConfiguration]
    by_cases hd : ∃ rest : List (List (Str × Json N)), c.defines = rest.map fun l => some (.obj l)
    · obtain ⟨rest, hr⟩ := hd
      have hs : configStart c.config = none := by
        cases e : c.config with
        | none => exact absurd ⟨[], rest, rfl, .inl ⟨e, rfl⟩, hr⟩ (hno _)
        | some j =>
          cases j with
          | none => rfl
          | some j =>
            cases j with
            | obj l => exact absurd ⟨l, rest, rfl, .inr e, hr⟩ (hno _)
            | _ => rfl
      rw [hs]; exact foldl_none _
    · exact defs _ _ fun rest e => hd ⟨rest, e⟩

/-! ## The target -/

/-- **C114.** A single argument is the name of a target in the module that belongs to the working directory. -/
theorem C114_name {c : Call N} (hn : c.Normal) {m : List Str} (hm : Current c m) {t : Str} (ha : c.args = [t]) :
    readTarget c = (readConfiguration c).map fun cfg => (⟨c.repo, joinWith '/' m, t, .target⟩, cfg) := by
  obtain ⟨h1, -⟩ := current_mk hn hm []
  have e : readTarget c = (readConfiguration c).bind fun cfg =>
      (Names.parse c.bind (.str t : Json N) (Names.mk c.repo (joinWith '/' (currentModule c)) [] .target)).map fun n => (n, cfg) := by
    rw [readTarget, ha]; rfl
  rw [e, h1]
  have e2 : Names.parse c.bind (.str t : Json N) ⟨c.repo, joinWith '/' m, [], .target⟩ = some (Names.mk c.repo (joinWith '/' m) t .target) := rfl
  have hnm : Names.NormalModule (joinWith '/' m) := by
    have : Names.normalModule (joinWith '/' (currentModule c)) = joinWith '/' m := congrArg Names.Named.module h1
    rw [← this]; exact Names.normalModule_normal _
  have e3 : Names.mk c.repo (joinWith '/' m) t .target = ⟨c.repo, joinWith '/' m, t, .target⟩ := by
    rw [Names.mk, Names.normalModule_of_normal hnm]
  rw [e2, e3]
  cases readConfiguration c <;> rfl

/-- **C114.** Two arguments are module and name; with `@` before them, repository, module and name. The working directory, the
workspace, and what is in the target root do not matter then. -/
theorem C114_explicit {c : Call N} {m t : Str} :
    (c.args = [m, t] → readTarget c = (readConfiguration c).map fun cfg =>
      (⟨c.repo, joinWith '/' (place ('/' :: m)).down, t, .target⟩, cfg)) ∧
    ∀ r, c.args = [['@'], r, m, t] → readTarget c = (readConfiguration c).bind fun cfg => (c.bind c.repo r).map fun g =>
      (⟨g, joinWith '/' (place ('/' :: m)).down, t, .target⟩, cfg) := by
  refine ⟨fun ha => ?_, fun r ha => ?_⟩
  · have e : readTarget c = (readConfiguration c).bind fun cfg =>
        (some (Names.mk c.repo m t .target)).map fun n => (n, cfg) := by
      rw [readTarget, ha]; rfl
    rw [e, Names.mk, Names.normalModule_eq]
    cases readConfiguration c <;> rfl
  · have e : readTarget c = (readConfiguration c).bind fun cfg =>
        (match c.bind c.repo r with
          | some g => some (Names.mk g m t .target)
          | none => none).map fun n => (n, cfg) := by
      rw [readTarget, ha]; rfl
    rw [e]
    cases readConfiguration c with
    | none => rfl
    | some cfg =>
      cases c.bind c.repo r with
      | none => rfl
      | some g =>
        show some (Names.mk g m t .target, cfg) = _
        rw [Names.mk, Names.normalModule_eq]; rfl

/-- **C114.** Without argument, the target is the first one of the current module; there is an error if and only if the module has no
targets. -/
theorem C114_default {c : Call N} (hn : c.Normal) {m : List Str} (hm : Current c m) (ha : c.args = []) {look : List Str → Entry N}
    (hr : c.root = some look) {cfg : List (Str × Json N)} (hc : readConfiguration c = some cfg) :
    (∀ l, look (m ++ [c.fileName]) = .file (some (.obj l)) → Ascending l → l ≠ [] →
      ∃ k, readTarget c = some (⟨c.repo, joinWith '/' m, k, .target⟩, cfg) ∧ (∃ v, (k, v) ∈ l) ∧ ∀ p ∈ l, k ≤ p.1) ∧
    ((∀ l, look (m ++ [c.fileName]) = .file (some (.obj l)) → l = []) → readTarget c = none) := by
  have e : readTarget c = match look (m ++ [c.fileName]) with
      | .file (some (.obj ((k, _) :: _))) => some (Names.mk c.repo (joinWith '/' (currentModule c)) k .target, cfg)
      | _ => none := by
    rw [readTarget, hc, ha, (current_mk hn hm []).2, hr]; rfl
  constructor
  · intro l hl hasc hne
    cases l with
    | nil => exact absurd rfl hne
    | cons p t =>
      obtain ⟨k, v⟩ := p
      refine ⟨k, ?_, ⟨v, by simp⟩, fun p hp => ?_⟩
      · rw [e, hl, ← (current_mk hn hm k).1]
      · rcases List.mem_cons.mp hp with rfl | hp
        · exact le_refl _
        · exact le_of_lt ((List.pairwise_cons.mp hasc).1 p hp)
  · intro h
    rw [e]
    cases hl : look (m ++ [c.fileName]) with
    | missing => rfl
    | other => rfl
    | file j =>
      cases j with
      | none => rfl
      | some j =>
        cases j with
        | obj l =>
          rw [h l hl]
        | _ => rfl

/-- **C114.** If the target root is absent, then the target is the one with the empty name in the top-level module. -/
theorem C114_absent {c : Call N} (ha : c.args = []) (hr : c.root = none) :
    readTarget c = (readConfiguration c).map fun cfg => (⟨c.repo, [], [], .target⟩, cfg) := by
  have e : readTarget c = (readConfiguration c).bind fun cfg =>
      (some (Names.mk c.repo ".".toList [] .target)).map fun n => (n, cfg) := by
    rw [readTarget, ha, hr]; rfl
  have e2 : Names.normalModule ".".toList = [] := by decide +kernel
  rw [e, Names.mk, e2]
  cases readConfiguration c <;> rfl

/-- Beside the hypothesis: there is precisely one current module. -/
theorem C114_current {c : Call N} (hn : c.Normal) : ∃ m, Current c m ∧ ∀ m', Current c m' → m' = m := by
  obtain ⟨m, h, -⟩ := current_exists hn
  exact ⟨m, h, fun m' h' => current_unique h' h⟩

/-! ## Modules have target files -/

/-- There is a target file in a directory of the target root. -/
def TargetFile (c : Call N) (d : List Str) : Prop := ∃ look j, c.root = some look ∧ look (d ++ [c.fileName]) = .file j

/-- **C114**, part. The current module is the closest directory, from the working directory up to the workspace, with a target file,
or else the top-level module. Missing: directories with the name of target files (C114_violation_directory). -/
theorem C114_module_partial {c : Call N} (hd : ∀ look, c.root = some look → ∀ d, look (d ++ [c.fileName]) ≠ .other) (m : List Str) :
    Current c m ↔ (∃ ws s, c.workspace = some ws ∧ c.cwd = some (ws ++ s) ∧ Closest (TargetFile c) s m) ∨
      m = [] ∧ ∀ ws s, c.workspace = some ws → c.cwd = some (ws ++ s) → ∀ d, d <+: s → ¬ TargetFile c d := by
  have h : HasTargets c = TargetFile c := by
    funext d
    refine propext ⟨?_, ?_⟩
    · rintro ⟨look, hl, h⟩
      have ho := hd look hl d
      cases e : look (d ++ [c.fileName]) with
      | missing => exact absurd e h
      | other => exact absurd e ho
      | file j => exact ⟨look, j, hl, e⟩
    · rintro ⟨look, j, hl, h⟩
      exact ⟨look, hl, by rw [h]; exact nofun⟩
  rw [Current, h]

/-- **C114.** With nothing given, the working directory matters through the module only: two calls that agree in everything else and
are in directories that belong to the same module give the same. -/
theorem C114_same {c c' : Call N} (hn : c.Normal) (hn' : c'.Normal) (hr : c'.repo = c.repo) (hb : c'.bind = c.bind)
    (ht : c'.root = c.root) (hf : c'.fileName = c.fileName) (ha : c'.args = c.args) (hc : c'.config = c.config)
    (hd : c'.defines = c.defines) {m : List Str} (hm : Current c m) (hm' : Current c' m) : readTarget c' = readTarget c := by
  have e : ∀ n, Names.mk c'.repo (joinWith '/' (currentModule c')) n .target =
      Names.mk c.repo (joinWith '/' (currentModule c)) n .target := fun n => by
    rw [(current_mk hn hm n).1, (current_mk hn' hm' n).1, hr]
  have e1 : clean (currentModule c') = clean (currentModule c) := by
    rw [(current_mk hn hm []).2, (current_mk hn' hm' []).2]
  simp only [readTarget, readConfiguration, e, e1, hb, ht, hf, ha, hc, hd]

end

end Verif.Cli
