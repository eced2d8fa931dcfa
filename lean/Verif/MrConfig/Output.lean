import Verif.MrConfig.Reach

/-!
# The entries of the configuration
-/

namespace Verif.MrConfig

open Verif

section
variable {N : Type} {repos : List (Str × Json N)}

theorem find_empty {V : Type} (k : Str) : (OMap.empty : OMap Str V).find k = none := rfl

/-! ## Taking over fields -/

open Classical in
theorem takeOver_fold (l : List (Str × Json N)) (ks : List Str) (cfg : Obj N) (k : Str) :
    (ks.foldl (fun c k => match field k l with | .null => c | v => c.assign k v) cfg).find k =
      if k ∈ ks ∧ field k l ≠ .null then some (field k l) else cfg.find k := by
  induction ks generalizing cfg with
  | nil => simp
  | cons x ks ih =>
    rw [List.foldl_cons, ih]
    by_cases hk : k ∈ ks ∧ field k l ≠ .null
    · rw [if_pos hk, if_pos ⟨List.mem_cons_of_mem _ hk.1, hk.2⟩]
    · rw [if_neg hk]
      split
      · rename_i hx
        rw [if_neg]
        rintro ⟨h1, h2⟩
        rcases List.mem_cons.mp h1 with rfl | h1
        · exact h2 hx
        · exact hk ⟨h1, h2⟩
      · rename_i v hx
        rw [OMap.find_assign]
        by_cases hkx : k = x
        · subst hkx
          rw [if_pos rfl, if_pos ⟨List.mem_cons_self, hx⟩]
        · rw [if_neg hkx, if_neg]
          rintro ⟨h1, h2⟩
          rcases List.mem_cons.mp h1 with rfl | h1
          · exact hkx rfl
          · exact hk ⟨h1, h2⟩

open Classical in
theorem takeOver_find (l : List (Str × Json N)) (cfg : Obj N) (k : Str) :
    (takeOver l cfg).find k =
      if k ∈ takeOverKeys ∧ field k l ≠ .null then some (field k l) else cfg.find k :=
  takeOver_fold l takeOverKeys cfg k

theorem ws_not_taken : "workspace_root".toList ∉ takeOverKeys := by decide

theorem ws_not_alt : "workspace_root".toList ∉ altDirs := by decide

theorem alt_not_taken : ∀ k ∈ altDirs, k ∉ takeOverKeys := by decide

theorem altDirs_nodup : altDirs.Nodup := by decide

/-! ## Layers -/

theorem addLayers_find {ws : Str → Json N} {skip : Option Str} {l : List (Str × Json N)} {ks : List Str}
    {cfg c : Obj N} (hn : ks.Nodup) (h : addLayers ws skip l ks cfg = some c) :
    (∀ k ∉ ks, c.find k = cfg.find k) ∧
    ∀ k ∈ ks, (field k l = .null ∧ c.find k = cfg.find k) ∨
      ∃ v, field k l = .str v ∧ c.find k = if skip = some v then cfg.find k else some (ws v) := by
  induction ks generalizing cfg with
  | nil => rw [addLayers] at h; cases h; exact ⟨fun _ _ => rfl, fun k hk => absurd hk List.not_mem_nil⟩
  | cons x ks ih =>
    obtain ⟨hx, hn'⟩ := List.nodup_cons.mp hn
    rw [addLayers] at h
    split at h
    · rename_i hf
      obtain ⟨h1, h2⟩ := ih hn' h
      refine ⟨fun k hk => h1 k fun hm => hk (List.mem_cons_of_mem _ hm), fun k hk => ?_⟩
      rcases List.mem_cons.mp hk with rfl | hk
      · exact Or.inl ⟨hf, h1 _ hx⟩
      · exact h2 k hk
    · rename_i v hf
      obtain ⟨h1, h2⟩ := ih hn' h
      have hcfg : ∀ k, k ≠ x → (if skip = some v then cfg else cfg.assign x (ws v)).find k = cfg.find k := by
        intro k hk
        split
        · rfl
        · rw [OMap.find_assign, if_neg hk]
      refine ⟨fun k hk => ?_, fun k hk => ?_⟩
      · rw [h1 k fun hm => hk (List.mem_cons_of_mem _ hm)]
        exact hcfg k fun e => hk (e ▸ List.mem_cons_self)
      · by_cases hkx : k = x
        · subst hkx
          refine Or.inr ⟨v, hf, ?_⟩
          rw [h1 k hx]
          split
          · rfl
          · rw [OMap.find_assign, if_pos rfl]
        · have hk' : k ∈ ks := by
            rcases List.mem_cons.mp hk with e | hk'
            · exact absurd e hkx
            · exact hk'
          have := h2 k hk'
          rw [hcfg k hkx] at this
          exact this
    · cases h

/-! ## Roots -/

theorem special_iff {r : List (Str × Json N)} {s : Str} : special r = some s ↔ Special r s := by
  unfold special Special
  split
  · rename_i p hp
    simp only [hp, Json.obj.injEq, exists_eq_left']
    split
    · rename_i s' hs'; simp only [hs', Option.some.injEq, Json.str.injEq]
    · rename_i hno
      constructor
      · intro e; cases e
      · intro e; exact absurd e (hno s)
  · rename_i hno
    constructor
    · intro e; cases e
    · rintro ⟨p, e, _⟩; exact absurd e (hno p)

theorem toGit_iff {r : List (Str × Json N)} : toGit r = true ↔ ToGit r := by
  unfold toGit ToGit
  simp only [Bool.or_eq_true, decide_eq_true_eq, special_iff, or_assoc]
  refine or_congr Iff.rfl (or_congr Iff.rfl ?_)
  split
  · rename_i p hp
    simp only [hp, Json.obj.injEq, exists_eq_left']
    split
    · rename_i b hb; simp only [hb, Json.bool.injEq]
    · rename_i hno
      constructor
      · intro e; cases e
      · intro e; exact absurd e (hno true)
  · rename_i hno
    constructor
    · intro e; cases e
    · rintro ⟨p, e, _⟩; exact absurd e (hno p)

/-- The module is used as name of the target. -/
def Misread (d root : Json N) : Prop :=
  ∃ repo m t c a, IsComputed d repo m t c a ∧ m ≠ t ∧
    root = .arr ([.str "computed".toList, .str repo, .str m, .str m, c] ++ pragmaFor a)

/-- The root written into the configuration for a description. -/
def RootGiven (env : Env N) (n : Str) (d root : Json N) : Prop := RootIs env n d root ∨ Misread d root

theorem mem_fetchTypes {t : Str} : t ∈ fetchTypes ↔ IsFetched t := by
  simp only [fetchTypes, IsFetched, List.mem_cons, List.not_mem_nil, or_false]

theorem preRoot_given {env : Env N} {n : Str} {d : Json N} {p : Pre N} (h : parsePre d = .root p) :
    RootGiven env n d (preRoot p) := by
  cases p with
  | computed repo m t c a =>
    obtain ⟨rfl, t', ht'⟩ := parsePre_computed.mp h
    by_cases e : t = t'
    · subst e; exact Or.inl (.computed ht')
    · exact Or.inr ⟨repo, t, t', c, a, ht', e, rfl⟩
  | tree repo a => exact Or.inl (.tree (parsePre_tree.mp h))

/-- What is done for a description. -/
theorem planFor_given {env : Env N} {n : Str} {r : List (Str × Json N)} {p : Plan N}
    (h : planFor env n r = some p) :
    (∃ root, p = .use root ∧ RootGiven env n (.obj r) root ∧ ∀ b, ¬ RefersTo (.obj r) b) ∨
    ∃ root b, p = .after b root ∧ RootGiven env n (.obj r) root ∧ RefersTo (.obj r) b := by
  unfold planFor at h
  split at h
  · rename_i t ht
    have ht' := field_str.mpr ht
    have hno : t ≠ "computed".toList → t ≠ "tree structure".toList → ∀ b, ¬ RefersTo (.obj r) b := by
      rintro h1 h2 b (⟨m, t', c, a, r', e, h3, _⟩ | ⟨a, r', e, h3, _⟩)
      · cases e; rw [ht'] at h3; cases h3; exact h1 rfl
      · cases e; rw [ht'] at h3; cases h3; exact h2 rfl
    split at h
    · rename_i hf
      obtain ⟨root, hr, rfl⟩ := Option.map_eq_some_iff.mp h
      refine Or.inl ⟨root, rfl, Or.inl (.fetched ht' (mem_fetchTypes.mp hf) hr), hno ?_ ?_⟩
      · rintro rfl; exact absurd hf (by decide)
      · rintro rfl; exact absurd hf (by decide)
    · split at h
      · rename_i hf hfile
        subst hfile
        obtain ⟨root, hr, rfl⟩ := Option.map_eq_some_iff.mp h
        refine Or.inl ⟨root, rfl, Or.inl ?_, hno (by decide) (by decide)⟩
        unfold fileRoot at hr
        split at hr
        · rename_i path hp
          split at hr
          · rename_i hg
            exact .imported ht' (toGit_iff.mp hg) hr
          · rename_i hg
            have hg' : ¬ ToGit r := fun h => hg (toGit_iff.mpr h)
            cases hr
            by_cases hs : special r = some "ignore".toList
            · rw [if_pos hs]
              exact .dirIgnore ht' (field_str.mpr hp) hg' (special_iff.mp hs)
            · rw [if_neg hs]
              exact .dir ht' (field_str.mpr hp) hg' (fun h => hs (special_iff.mpr h))
        · cases hr
      · split at h
        · split at h
          · rename_i pr hp
            cases h
            exact Or.inr ⟨_, _, rfl, preRoot_given hp, parsePre_refers.mp ⟨pr, hp, rfl⟩⟩
          · cases h
        · cases h
  · cases h

theorem plan_given {env : Env N} {n : Str} {l : List (Str × Json N)} {p : Plan N}
    (h : plan env repos n = some (l, p)) :
    assoc n repos = some (.obj l) ∧ ∃ d, Describes repos n d ∧
      ((∃ root, p = .use root ∧ RootGiven env n d root ∧ ∀ b, ¬ RefersTo d b) ∨
        ∃ root b, p = .after b root ∧ RootGiven env n d root ∧ RefersTo d b) := by
  unfold plan at h
  split at h
  · rename_i l' hl
    split at h
    · rename_i d hd
      split at h
      · rename_i r hr
        obtain ⟨p', hp, e⟩ := Option.map_eq_some_iff.mp h
        cases e
        exact ⟨hl, .obj r, describes_iff.mpr ⟨l, d, hl, hd, hr⟩, planFor_given hp⟩
      · cases h
    · cases h
  · cases h

/-- The entry of a repository that is not skipped. -/
theorem setupRepo_given {env : Env N} {skip : Option Str} {fuel : Nat} {n : Str} {c : Obj N}
    (hs : skip ≠ some n) (h : setupRepo env repos skip fuel n = some c) :
    ∃ l d root, assoc n repos = some (.obj l) ∧ Describes repos n d ∧ RootGiven env n d root ∧
      c = takeOver l (OMap.empty.assign "workspace_root".toList root) := by
  unfold setupRepo at h
  rw [if_neg hs] at h
  split at h
  · rename_i l root hp
    cases h
    obtain ⟨h1, d, h2, h3⟩ := plan_given hp
    rcases h3 with ⟨root', e, h3, _⟩ | ⟨_, _, e, _⟩
    · cases e; exact ⟨l, d, root, h1, h2, h3, rfl⟩
    · cases e
  · rename_i l target root hp
    split at h
    · cases h
    · obtain ⟨c', _, rfl⟩ := Option.map_eq_some_iff.mp h
      obtain ⟨h1, d, h2, h3⟩ := plan_given hp
      rcases h3 with ⟨root', e, _⟩ | ⟨root', b, e, h3, _⟩
      · cases e
      · cases e; exact ⟨l, d, root, h1, h2, h3, rfl⟩
  · cases h

theorem setupRepo_skip {env : Env N} {fuel : Nat} {n : Str} {c : Obj N}
    (h : setupRepo env repos (some n) fuel n = some c) :
    ((assoc n repos = none ∨ assoc n repos = some .null) ∧ c = OMap.empty) ∨
    ∃ l, assoc n repos = some (.obj l) ∧ c = takeOver l OMap.empty := by
  unfold setupRepo at h
  rw [if_pos rfl] at h
  split at h
  · rename_i hn; cases h; exact Or.inl ⟨Or.inl hn, rfl⟩
  · rename_i hn; cases h; exact Or.inl ⟨Or.inr hn, rfl⟩
  · rename_i l hn; cases h; exact Or.inr ⟨l, hn, rfl⟩
  · cases h

/-! ## Collecting -/

theorem collect_some {α β : Type} {f : α → Option β} {l : List α} {es : List (α × β)}
    (h : collect f l = some es) : es.map Prod.fst = l ∧ ∀ e ∈ es, f e.1 = some e.2 := by
  induction l generalizing es with
  | nil => rw [collect] at h; cases h; exact ⟨rfl, fun e he => absurd he List.not_mem_nil⟩
  | cons a l ih =>
    rw [collect] at h
    split at h
    · rename_i b bs hb hbs
      cases h
      obtain ⟨h1, h2⟩ := ih hbs
      refine ⟨by simp [h1], fun e he => ?_⟩
      rcases List.mem_cons.mp he with rfl | he
      · exact hb
      · exact h2 e he
    · cases h

theorem foldl_assign_find {V : Type} (es : List (Str × V)) (m : OMap Str V) (f : Str → Option V)
    (hf : ∀ e ∈ es, f e.1 = some e.2) (k : Str) :
    (es.foldl (fun m e => m.assign e.1 e.2) m).find k =
      if k ∈ es.map Prod.fst then f k else m.find k := by
  induction es generalizing m with
  | nil => simp
  | cons e es ih =>
    rw [List.foldl_cons, ih _ (fun e he => hf e (List.mem_cons_of_mem _ he)), OMap.find_assign]
    have he := hf e List.mem_cons_self
    by_cases h1 : k ∈ es.map Prod.fst
    · rw [if_pos h1, if_pos (by simp only [List.map_cons]; exact List.mem_cons_of_mem _ h1)]
    · rw [if_neg h1]
      by_cases h2 : k = e.1
      · subst h2
        rw [if_pos rfl, if_pos (by simp), he]
      · rw [if_neg h2, if_neg (by
          simp only [List.map_cons, List.mem_cons, not_or]; exact ⟨h2, h1⟩)]

theorem toObj_find {V : Type} {es : List (Str × V)} {f : Str → Option V}
    (hf : ∀ e ∈ es, f e.1 = some e.2) (k : Str) :
    assoc k (toObj es) = if k ∈ es.map Prod.fst then f k else none := by
  have := foldl_assign_find es OMap.empty f hf k
  rw [find_empty] at this
  exact this

theorem toObj_asc {V : Type} (es : List (Str × V)) : Ascending (toObj es) := by
  unfold toObj
  exact OMap.asc _

/-- The entries of the included repositories. -/
theorem populate_some {env : Env N} {skip : Option Str} {inv : Involved} {es : List (Str × Json N)}
    (h : populate env repos skip inv = some es) :
    ∃ entries : OMap Str (Obj N),
      (∀ n, entries.find n =
        if n ∈ inv.toSetup then setupRepo env repos skip (repos.length + 1) n else none) ∧
      (∀ n ∈ inv.toSetup, ∃ c, setupRepo env repos skip (repos.length + 1) n = some c) ∧
      es.map Prod.fst = inv.toInclude ∧ ∀ e ∈ es, finish repos entries skip e.1 = some e.2 := by
  unfold populate at h
  split at h
  · cases h
  · rename_i es' hes
    obtain ⟨h1, h2⟩ := collect_some hes
    obtain ⟨h3, h4⟩ := collect_some h
    refine ⟨_, fun n => ?_, fun n hn => ?_, h3, h4⟩
    · rw [foldl_assign_find es' _ _ h2, h1, find_empty]
    · rw [← h1] at hn
      obtain ⟨e, he, rfl⟩ := List.mem_map.mp hn
      exact ⟨_, h2 e he⟩

/-! ## The main repository -/

theorem foldl_min (l : List Str) (a : Str) :
    (l.foldl (fun x y => if y < x then y else x) a ∈ a :: l) ∧
    ∀ k ∈ a :: l, l.foldl (fun x y => if y < x then y else x) a ≤ k := by
  induction l generalizing a with
  | nil => exact ⟨List.mem_cons_self, fun k hk => by rw [List.mem_singleton.mp hk]; exact le_refl _⟩
  | cons b l ih =>
    rw [List.foldl_cons]
    obtain ⟨h1, h2⟩ := ih (if b < a then b else a)
    constructor
    · rcases List.mem_cons.mp h1 with h1 | h1
      · rw [h1]; split
        · exact List.mem_cons_of_mem _ List.mem_cons_self
        · exact List.mem_cons_self
      · exact List.mem_cons_of_mem _ (List.mem_cons_of_mem _ h1)
    · intro k hk
      have h0 := h2 _ List.mem_cons_self
      rcases List.mem_cons.mp hk with rfl | hk
      · refine le_trans h0 ?_
        split
        · rename_i hlt; exact le_of_lt hlt
        · exact le_refl _
      · rcases List.mem_cons.mp hk with rfl | hk
        · refine le_trans h0 ?_
          split
          · exact le_refl _
          · rename_i hlt; exact not_lt.mp hlt
        · exact h2 k (List.mem_cons_of_mem _ hk)

/-- The main repository taken is the one meant. -/
theorem theMain_iff {args : Args} {config : List (Str × Json N)} {given : Option Str}
    (h : givenMain args config = some given) (m : Str) :
    theMain given repos = some m ↔ MainIs args config repos m := by
  unfold givenMain at h
  unfold MainIs
  cases ha : args.main with
  | some m' =>
    rw [ha] at h; cases h
    simp only [theMain, Option.some.injEq, reduceCtorEq, false_and, or_false]
  | none =>
    rw [ha] at h
    simp only at h
    simp only [reduceCtorEq, true_and, false_or]
    split at h
    · rename_i hf
      cases h
      simp only [hf, reduceCtorEq, true_and, false_or, theMain]
      cases hk : repos.map Prod.fst with
      | nil => simp [minName]
      | cons a l =>
        obtain ⟨h1, h2⟩ := foldl_min l a
        simp only [minName, Option.some.injEq]
        constructor
        · rintro rfl; exact ⟨h1, h2⟩
        · rintro ⟨h3, h4⟩; exact le_antisymm (h2 m h3) (h4 _ h1)
    · rename_i m' hf
      cases h
      simp only [hf, theMain, Option.some.injEq, Json.str.injEq, reduceCtorEq, false_and, or_false]
    · cases h

/-! ## The whole configuration -/

/-- What a successful run consists of. -/
theorem generate_ok {env : Env N} {args : Args} {config : List (Str × Json N)} {out : Json N} {m : Str}
    (hr : field "repositories".toList config = .obj repos) (hm : MainIs args config repos m)
    (h : generate env args config = .ok out) :
    ∃ given inv es, givenMain args config = some given ∧ involved args repos (some m) = .ok inv ∧
      populate env repos (if args.interactive then some m else none) inv = some es ∧
      out = output given es := by
  unfold generate at h
  simp only [hr] at h
  split at h
  · cases h
  · rename_i given hg
    have := (theMain_iff hg m).mpr hm
    rw [this] at h
    obtain ⟨inv, h1, h2⟩ := Out.bind_ok.mp h
    split at h2
    · rename_i es hes
      cases h2
      exact ⟨given, inv, es, hg, h1, hes, rfl⟩
    · cases h2

theorem output_entry {given : Option Str} {es : List (Str × Json N)} {n : Str} {c : List (Str × Json N)} :
    Entry (output given es) n c ↔ assoc n (toObj es) = some (.obj c) := by
  have e0 : assoc n (toObj ([] : List (Str × Json N))) = none := rfl
  have hmr : ("repositories".toList : Str) ≠ "main".toList := by decide
  unfold output Entry
  cases given with
  | none =>
    cases es with
    | nil =>
      rw [e0]
      constructor
      · rintro ⟨top, rs, e, _⟩; cases e
      · intro e; cases e
    | cons e es =>
      constructor
      · rintro ⟨top, rs, e1, e2, e3⟩
        cases e1
        simp only [field, assoc, if_true, Option.getD_some, Json.obj.injEq] at e2
        rw [e2]; exact e3
      · intro e1
        exact ⟨_, _, rfl, by simp only [field, assoc, if_true, Option.getD_some], e1⟩
  | some m =>
    cases es with
    | nil =>
      rw [e0]
      constructor
      · rintro ⟨top, rs, e1, e2, _⟩
        cases e1
        simp only [field, assoc, if_neg hmr, Option.getD_none, reduceCtorEq] at e2
      · intro e; cases e
    | cons e es =>
      constructor
      · rintro ⟨top, rs, e1, e2, e3⟩
        cases e1
        simp only [field, assoc, if_neg hmr, if_true, Option.getD_some, Json.obj.injEq] at e2
        rw [e2]; exact e3
      · intro e1
        exact ⟨_, _, rfl, by simp only [field, assoc, if_neg hmr, if_true, Option.getD_some], e1⟩

end

end Verif.MrConfig
