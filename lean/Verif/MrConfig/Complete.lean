import Verif.MrConfig.AbsentProps

/-!
# C95: just-mr succeeds for descriptions all the roots of which can be provided
-/

namespace Verif.MrConfig

open Verif

section
variable {N : Type} {env : Env N} {repos : List (Str × Json N)}

/-- The chain of repositories from which a root has to be computed ends. -/
inductive Computable (repos : List (Str × Json N)) : Str → Prop
  | intro (a : Str) (h : ∀ b, Refers repos a b → Computable repos b) : Computable repos a

/-- A root can be provided for a repository. -/
def Provided (env : Env N) (repos : List (Str × Json N)) (n : Str) : Prop :=
  ∃ r root, Describes repos n (.obj r) ∧ RootIs env n (.obj r) root ∧
    (field "type".toList r = .str "file".toList → ∃ path, field "path".toList r = .str path)

theorem refersTo_det {d : Json N} {b c : Str} (h : RefersTo d b) (h' : RefersTo d c) : b = c := by
  have key : ∀ {d : Json N} {b : Str}, RefersTo d b → ∃ r, d = .obj r ∧ field "repo".toList r = .str b := by
    rintro d b (⟨_, _, _, _, r, rfl, _, h, _⟩ | ⟨_, r, rfl, _, h, _⟩)
    · exact ⟨r, rfl, h⟩
    · exact ⟨r, rfl, h⟩
  obtain ⟨r, rfl, h1⟩ := key h
  obtain ⟨r', e, h2⟩ := key h'
  cases e
  rw [h1] at h2; cases h2; rfl

theorem refers_det {a b c : Str} (h : Refers repos a b) (h' : Refers repos a c) : b = c := by
  obtain ⟨d, hd, hr⟩ := h
  obtain ⟨d', hd', hr'⟩ := h'
  rw [hd'.det hd] at hr'
  exact refersTo_det hr hr'

theorem refers_mem {a b : Str} (h : Refers repos a b) : a ∈ repos.map Prod.fst := by
  obtain ⟨l, hl⟩ := refers_obj h
  exact List.mem_map_of_mem (f := Prod.fst) (assoc_some_mem hl)

/-- The repositories that have to be waited for. -/
inductive Waits (repos : List (Str × Json N)) : Str → List Str → Prop
  | stop {a : Str} (h : ∀ b, ¬ Refers repos a b) : Waits repos a [a]
  | step {a b : Str} {l : List Str} (h : Refers repos a b) (hl : Waits repos b l) : Waits repos a (a :: l)

theorem Waits.det {a : Str} {l l' : List Str} (h : Waits repos a l) (h' : Waits repos a l') : l = l' := by
  induction h generalizing l' with
  | stop hn =>
    cases h' with
    | stop _ => rfl
    | step h _ => exact absurd h (hn _)
  | step h hl ih =>
    cases h' with
    | stop hn => exact absurd h (hn _)
    | step h2 hl2 =>
      rw [refers_det h2 h] at hl2
      rw [ih hl2]

theorem Waits.suffix {a b : Str} {l : List Str} (h : Waits repos a l) (hb : b ∈ l) :
    ∃ l', Waits repos b l' ∧ l'.length ≤ l.length := by
  induction h with
  | stop hn =>
    simp only [List.mem_singleton] at hb
    subst hb
    exact ⟨_, .stop hn, Nat.le_refl _⟩
  | step h hl ih =>
    rcases List.mem_cons.mp hb with rfl | hb
    · exact ⟨_, .step h hl, Nat.le_refl _⟩
    · obtain ⟨l', h1, h2⟩ := ih hb
      exact ⟨l', h1, Nat.le_succ_of_le h2⟩

theorem Waits.nodup {a : Str} {l : List Str} (h : Waits repos a l) : l.Nodup := by
  induction h with
  | stop hn => exact List.nodup_cons.mpr ⟨List.not_mem_nil, List.nodup_nil⟩
  | @step a b l h hl ih =>
    refine List.nodup_cons.mpr ⟨fun hm => ?_, ih⟩
    obtain ⟨l', h1, h2⟩ := hl.suffix hm
    have := h1.det (.step h hl)
    rw [this] at h2
    simp only [List.length_cons] at h2
    omega

theorem Waits.mem_keys {a : Str} {l : List Str} (h : Waits repos a l) :
    ∃ pre z, l = pre ++ [z] ∧ ∀ x ∈ pre, x ∈ repos.map Prod.fst := by
  induction h with
  | @stop a hn => exact ⟨[], a, rfl, fun x hx => absurd hx List.not_mem_nil⟩
  | @step a b l h hl ih =>
    obtain ⟨pre, z, rfl, hp⟩ := ih
    refine ⟨a :: pre, z, rfl, fun x hx => ?_⟩
    rcases List.mem_cons.mp hx with rfl | hx
    · exact refers_mem h
    · exact hp x hx

theorem Waits.length_le {a : Str} {l : List Str} (h : Waits repos a l) : l.length ≤ repos.length + 1 := by
  obtain ⟨pre, z, rfl, hp⟩ := h.mem_keys
  have hn := h.nodup
  have hs : pre ⊆ repos.map Prod.fst := hp
  have := (List.subperm_of_subset (List.nodup_append.mp hn).1 hs).length_le
  simp only [List.length_map] at this
  simp only [List.length_append, List.length_cons, List.length_nil]
  omega

theorem Computable.waits {a : Str} (h : Computable repos a) : ∃ l, Waits repos a l := by
  induction h with
  | intro a h ih =>
    by_cases hb : ∃ b, Refers repos a b
    · obtain ⟨b, hb⟩ := hb
      obtain ⟨l, hl⟩ := ih b hb
      exact ⟨_, .step hb hl⟩
    · exact ⟨[a], .stop fun b hb' => hb ⟨b, hb'⟩⟩

/-! ## The search -/

theorem parsePre_throws {n : Str} {d root : Json N} (h : RootIs env n d root) : parsePre d ≠ .throws := by
  intro ht
  have : ∃ r, d = .obj r ∧ field "type".toList r = .str "tree structure".toList ∧
      ∀ s, field "repo".toList r ≠ .str s := by
    unfold parsePre at ht
    split at ht
    · rename_i r
      split at ht
      · rename_i t hty
        split at ht
        · unfold parseComputed at ht
          split at ht
          · split at ht
            · split at ht <;> cases ht
            · cases ht
          · cases ht
        · split at ht
          · rename_i htt
            subst htt
            unfold parseTree at ht
            split at ht
            · cases ht
            · split at ht
              · cases ht
              · split at ht
                · cases ht
                · rename_i hno
                  exact ⟨r, rfl, hty, hno⟩
          · cases ht
      · cases ht
    · cases ht
  obtain ⟨r, rfl, hty, hno⟩ := this
  cases h with
  | fetched ht hf _ => rw [hty] at ht; cases ht; revert hf; simp only [IsFetched]; decide
  | imported ht _ _ => rw [hty] at ht; revert ht; simp
  | dir ht _ _ _ => rw [hty] at ht; revert ht; simp
  | dirIgnore ht _ _ _ => rw [hty] at ht; revert ht; simp
  | computed h =>
    obtain ⟨r', e, ht, _⟩ := h
    cases e
    rw [hty] at ht; revert ht; simp
  | tree h =>
    obtain ⟨r', e, _, hr, _⟩ := h
    cases e
    exact hno _ hr

theorem targetOf_provided {a : Str} (h : Provided env repos a) : ∃ t, targetOf repos a = .ok t := by
  obtain ⟨r, root, hd, hr, _⟩ := h
  obtain ⟨l, hl⟩ := hd.grounded.chain
  rcases targetLoop_ok hl (repos.length + 1) hl.length_le with ⟨d', hd', he⟩ | ⟨hno, _⟩
  · rw [hd'.det hd] at he
    rw [targetOf, he]
    split
    · exact ⟨_, rfl⟩
    · exact ⟨_, rfl⟩
    · rename_i ht
      exact absurd ht (parsePre_throws hr)
  · exact absurd hd (hno _)

theorem mapAll_total {α β : Type} {f : α → Out β} {l : List α} (h : ∀ a ∈ l, ∃ b, f a = .ok b) :
    ∃ bs, mapAll f l = .ok bs := by
  induction l with
  | nil => exact ⟨_, rfl⟩
  | cons a l ih =>
    obtain ⟨b, hb⟩ := h a (List.mem_cons_self ..)
    obtain ⟨bs, hbs⟩ := ih (fun x hx => h x (List.mem_cons_of_mem _ hx))
    exact ⟨b :: bs, by simp only [mapAll, hb, hbs, Out.bind]⟩

theorem visit_total {a : Str} (h : Provided env repos a) (hl : ∀ k c, Layer repos a k c → Provided env repos c) :
    ∃ r, visit repos a = .ok r := by
  obtain ⟨t, ht⟩ := targetOf_provided h
  obtain ⟨r, root, hd, _, _⟩ := h
  obtain ⟨l, _, hal, _⟩ := describes_iff.mp hd
  obtain ⟨ts, hts⟩ := mapAll_total (f := targetOf repos) (l := layerNames l) (fun c hc => by
    obtain ⟨k, hk⟩ := (mem_layerNames hal).mp hc
    exact targetOf_provided (hl k c hk))
  exact ⟨_, by simp only [visit, hal, ht, hts, Out.bind]; rfl⟩

theorem reachLoop_total {fuel : Nat} {q inc layers : List Str} (hf : q.length + remaining repos inc ≤ fuel)
    (P : Str → Prop) (hq : ∀ n ∈ q, P n) (hc : ∀ a b, P a → Leads repos a b → P b)
    (hv : ∀ n, P n → ∃ r, visit repos n = .ok r) : ∃ r, reachLoop repos fuel q inc layers = .ok r := by
  induction fuel generalizing q inc layers with
  | zero =>
    cases q with
    | nil => exact ⟨_, rfl⟩
    | cons n q => simp only [List.length_cons] at hf; omega
  | succ fuel ih =>
    cases q with
    | nil => exact ⟨_, rfl⟩
    | cons n q =>
      rw [reachLoop]
      simp only [List.length_cons] at hf
      split
      · exact ih (by omega) (fun x hx => hq x (List.mem_cons_of_mem _ hx))
      · rename_i hn
        obtain ⟨⟨found, ls⟩, hvn⟩ := hv n (hq n List.mem_cons_self)
        simp only [hvn, Out.bind]
        have h1 := visit_length hvn
        have h2 := remaining_visit hn repos
        refine ih ?_ (fun x hx => ?_)
        · simp only [List.length_append]
          generalize (match assoc n repos with | some d => pushes d | none => 0) = z at h1 h2
          omega
        · rcases List.mem_append.mp hx with hx | hx
          · exact hq x (List.mem_cons_of_mem _ hx)
          · exact hc n x (hq n List.mem_cons_self) (((visit_ok hvn).1 x).mp hx)

/-! ## The entries -/

theorem planFor_total {n : Str} {r : List (Str × Json N)} {root : Json N} (h : RootIs env n (.obj r) root)
    (hp : field "type".toList r = .str "file".toList → ∃ path, field "path".toList r = .str path) :
    ∃ p, planFor env n r = some p := by
  have hfile : ("file".toList : Str) ∉ fetchTypes := by decide
  have hcomp : ("computed".toList : Str) ∉ fetchTypes ∧ ("computed".toList : Str) ≠ "file".toList := by decide
  have htree : ("tree structure".toList : Str) ∉ fetchTypes ∧
    ("tree structure".toList : Str) ≠ "file".toList := by decide
  cases h with
  | fetched ht hf hfe =>
    exact ⟨_, by simp only [planFor, field_str.mp ht, if_pos (mem_fetchTypes.mpr hf), hfe, Option.map_some]; rfl⟩
  | imported ht hg hfe =>
    obtain ⟨path, hpath⟩ := hp ht
    exact ⟨_, by
      simp only [planFor, field_str.mp ht, if_neg hfile, if_true, fileRoot, field_str.mp hpath,
        toGit_iff.mpr hg, hfe, Option.map_some]; rfl⟩
  | dir ht hpath hg hs =>
    have : ¬ toGit r = true := fun e => hg (toGit_iff.mp e)
    exact ⟨_, by
      simp only [planFor, field_str.mp ht, if_neg hfile, if_true, fileRoot, field_str.mp hpath,
        if_neg this, Option.map_some]; rfl⟩
  | dirIgnore ht hpath hg hs =>
    have : ¬ toGit r = true := fun e => hg (toGit_iff.mp e)
    exact ⟨_, by
      simp only [planFor, field_str.mp ht, if_neg hfile, if_true, fileRoot, field_str.mp hpath,
        if_neg this, Option.map_some]; rfl⟩
  | computed hc =>
    have hpre := parsePre_computed.mpr ⟨rfl, _, hc⟩
    obtain ⟨r', e, ht, _⟩ := hc
    cases e
    exact ⟨_, by
      simp only [planFor, field_str.mp ht, if_neg hcomp.1, if_neg hcomp.2, true_or, if_true, hpre]; rfl⟩
  | tree hc =>
    have hpre := parsePre_tree.mpr hc
    obtain ⟨r', e, ht, _⟩ := hc
    cases e
    exact ⟨_, by
      simp only [planFor, field_str.mp ht, if_neg htree.1, if_neg htree.2, or_true, if_true, hpre]; rfl⟩

theorem setupRepo_total {skip : Option Str} {n : Str} {l : List Str} (hw : Waits repos n l)
    (hp : ∀ x ∈ l, Provided env repos x) {fuel : Nat} (hf : l.length ≤ fuel) :
    ∃ c, setupRepo env repos skip fuel n = some c := by
  have hskip : ∀ {n fuel}, Provided env repos n → skip = some n →
      ∃ c, setupRepo env repos skip fuel n = some c := by
    rintro n fuel ⟨r, root, hd, _, _⟩ hs
    obtain ⟨l, _, hal, _⟩ := describes_iff.mp hd
    exact ⟨_, by unfold setupRepo; simp only [hs, if_true, hal]; rfl⟩
  have hplan : ∀ {n}, Provided env repos n → ∃ l p, plan env repos n = some (l, p) := by
    rintro n ⟨r, root, hd, hr, hpath⟩
    obtain ⟨l, d, hal, hrep, hres⟩ := describes_iff.mp hd
    obtain ⟨p, hp⟩ := planFor_total hr hpath
    exact ⟨l, p, by simp only [plan, hal, hrep, hres, hp, Option.map_some]⟩
  induction hw generalizing fuel with
  | @stop a hn =>
    have hpa := hp a (List.mem_singleton.mpr rfl)
    by_cases hs : skip = some a
    · exact hskip hpa hs
    · obtain ⟨l, p, hpl⟩ := hplan hpa
      obtain ⟨_, d, hd, hcase⟩ := plan_given hpl
      rcases hcase with ⟨root, rfl, _, _⟩ | ⟨root, b, rfl, _, hb⟩
      · exact ⟨_, by unfold setupRepo; simp only [if_neg hs, hpl]; rfl⟩
      · exact absurd ⟨d, hd, hb⟩ (hn b)
  | @step a b l h hl ih =>
    have hpa := hp a (List.mem_cons_self ..)
    by_cases hs : skip = some a
    · exact hskip hpa hs
    · obtain ⟨l', p, hpl⟩ := hplan hpa
      obtain ⟨_, d, hd, hcase⟩ := plan_given hpl
      rcases hcase with ⟨root, rfl, _, hno⟩ | ⟨root, b', rfl, _, hb⟩
      · exact ⟨_, by unfold setupRepo; simp only [if_neg hs, hpl]; rfl⟩
      · cases fuel with
        | zero => simp at hf
        | succ fuel =>
          simp only [List.length_cons] at hf
          have hbb : b' = b := refers_det ⟨d, hd, hb⟩ h
          subst hbb
          obtain ⟨c, hc⟩ := ih (fun x hx => hp x (List.mem_cons_of_mem _ hx)) (fuel := fuel) (by omega)
          exact ⟨_, by unfold setupRepo; simp only [if_neg hs, hpl, hc, Option.map_some]; rfl⟩

theorem addLayers_total {ws : Str → Json N} {skip : Option Str} {l : List (Str × Json N)} {ks : List Str}
    (h : ∀ k ∈ ks, field k l = .null ∨ ∃ s, field k l = .str s) (cfg : Obj N) :
    ∃ c, addLayers ws skip l ks cfg = some c := by
  induction ks generalizing cfg with
  | nil => exact ⟨_, rfl⟩
  | cons k ks ih =>
    rcases h k (List.mem_cons_self ..) with hk | ⟨s, hk⟩
    · simp only [addLayers, hk]
      exact ih (fun x hx => h x (List.mem_cons_of_mem _ hx)) _
    · simp only [addLayers, hk]
      exact ih (fun x hx => h x (List.mem_cons_of_mem _ hx)) _

variable {args : Args} {config : List (Str × Json N)} {m : Str}

/-- **C95.**  just-mr generates a configuration, if for every repository needed, and for every layer of one, a
root can be provided, no root has to be computed, over some steps, from itself, and layers are given by
names. -/
theorem C95_succeeds (hr : field "repositories".toList config = .obj repos)
    (hm : MainIs args config repos m) (hall : args.all = false)
    (hp : ∀ n, Needed repos m n → Provided env repos n ∧ ∀ k c, Layer repos n k c → Provided env repos c)
    (hc : ∀ n, Needed repos m n → Computable repos n ∧ ∀ k c, Layer repos n k c → Computable repos c)
    (hl : ∀ n k v, Needed repos m n → k = "target_root".toList ∨ k = "rule_root".toList ∨
      k = "expression_root".toList → Has repos n k v → ∃ s, v = .str s) :
    ∃ out, generate env args config = .ok out := by
  obtain ⟨given, hg⟩ : ∃ given, givenMain args config = some given := by
    unfold givenMain
    rcases hm with h | ⟨h, h'⟩ | ⟨h, h', _⟩
    · rw [h]; exact ⟨_, rfl⟩
    · rw [h]; simp only [h']; exact ⟨_, rfl⟩
    · rw [h]; simp only [h']; exact ⟨_, rfl⟩
  obtain ⟨⟨inc, layers⟩, hloop⟩ := reachLoop_total (repos := repos) (fuel := reachFuel repos) (q := [m])
    (inc := []) (layers := []) (by rw [remaining_nil, reachFuel, List.length_singleton]) (Needed repos m)
    (fun n hn => by rw [List.mem_singleton.mp hn]; exact .main) (fun a b ha hb => needed_closed ha hb)
    (fun n hn => visit_total (hp n hn).1 (hp n hn).2)
  have hinv : involved args repos (some m) = .ok ⟨(layers ++ inc).dedup, inc⟩ := by
    simp only [involved, hall, Bool.false_eq_true, if_false, reachable, hloop, Out.bind]
  obtain ⟨i1, i2⟩ := involved_ok hall hinv
  have hset : ∀ n ∈ (layers ++ inc).dedup, Provided env repos n ∧ Computable repos n := by
    intro n hn
    rcases (i2 n).mp hn with hn | ⟨a, k, ha, hk⟩
    · exact ⟨(hp n hn).1, (hc n hn).1⟩
    · exact ⟨(hp a ha).2 k n hk, (hc a ha).2 k n hk⟩
  have hchain : ∀ n ∈ (layers ++ inc).dedup, ∀ l, Waits repos n l → ∀ x ∈ l, Provided env repos x := by
    intro n hn l hw
    have hin : ∀ b, Refers repos n b → Needed repos m b := by
      intro b hb
      rcases (i2 n).mp hn with hn | ⟨a, k, ha, hk⟩
      · exact .root hn hb
      · exact .layer ha hk hb
    have hrest : ∀ {b l}, Waits repos b l → Needed repos m b → ∀ x ∈ l, Provided env repos x := by
      intro b l hw
      induction hw with
      | stop _ => intro hb x hx; rw [List.mem_singleton.mp hx]; exact (hp _ hb).1
      | step h _ ih =>
        intro hb x hx
        rcases List.mem_cons.mp hx with rfl | hx
        · exact (hp _ hb).1
        · exact ih (.root hb h) x hx
    cases hw with
    | stop _ => intro x hx; rw [List.mem_singleton.mp hx]; exact (hset _ hn).1
    | step h hl =>
      intro x hx
      rcases List.mem_cons.mp hx with rfl | hx
      · exact (hset _ hn).1
      · exact hrest hl (hin _ h) x hx
  have hpop : ∀ skip, ∃ es, populate env repos skip ⟨(layers ++ inc).dedup, inc⟩ = some es := by
    intro skip
    obtain ⟨es1, h1⟩ := collect_complete (f := setupRepo env repos skip (repos.length + 1)) (l := (layers ++ inc).dedup)
      (fun n hn => by
        obtain ⟨l, hw⟩ := (hset n hn).2.waits
        exact setupRepo_total hw (hchain n hn l hw) hw.length_le)
    obtain ⟨es2, h2⟩ := collect_complete (f := finish repos
        (es1.foldl (fun m e => m.assign e.1 e.2) OMap.empty) skip)
      (l := inc) (fun n hn => by
        have hneed := (i1 n).mp hn
        obtain ⟨r, root, hd, _, _⟩ := (hp n hneed).1
        obtain ⟨ln, _, hal, _⟩ := describes_iff.mp hd
        unfold finish
        split
        · exact ⟨_, rfl⟩
        · split
          · exact ⟨_, rfl⟩
          · simp only [hal]
            obtain ⟨c, hc⟩ := addLayers_total
              (ws := fun v => rootIn ((es1.foldl (fun m e => m.assign e.1 e.2) OMap.empty).find v))
              (skip := skip) (l := ln) (ks := altDirs) (fun k hk => by
                by_cases hv : field k ln = .null
                · exact Or.inl hv
                · exact Or.inr (hl n k _ hneed (mem_altDirs.mp hk) ((has_iff hv).mpr ⟨ln, hal, rfl⟩)))
              ‹Obj N›
            exact ⟨_, by rw [hc]; rfl⟩)
    exact ⟨es2, by simp only [populate, h1, h2]⟩
  obtain ⟨es, hes⟩ := hpop (if args.interactive then some m else none)
  exact ⟨_, by
    simp only [generate, hr, hg, (theMain_iff hg m).mpr hm, hinv, Out.bind, hes]; rfl⟩

end

/-- The hypotheses can be met: the example with a binding, a layer, an alias and a computed root is accepted. -/
example : (match generate exampleEnv ⟨none, false, false⟩ exampleConfig with | .ok _ => true | _ => false) =
    true := by decide +kernel

/-- The description of the root of "a" below. -/
def dirOfA : List (Str × Json Unit) := [("path".toList, .str ".".toList), ("type".toList, .str "file".toList)]

/-- The description of the root of "b" below. -/
def rootOfB : List (Str × Json Unit) :=
  [("repo".toList, .str "a".toList), ("target".toList, .arr [.str "".toList, .str "".toList]),
   ("type".toList, .str "computed".toList)]

/-- Repository "a" binds "b", the root of which is computed from "a". -/
def twoRepos : List (Str × Json Unit) :=
  [("a".toList, .obj [("bindings".toList, .obj [("x".toList, .str "b".toList)]), ("repository".toList, .obj dirOfA)]),
   ("b".toList, .obj [("repository".toList, .obj rootOfB), ("target_root".toList, .str "a".toList)])]

/-- The hypotheses of `C95_succeeds` hold for this description. -/
example : ∃ out, generate exampleEnv ⟨none, false, false⟩ [("repositories".toList, .obj twoRepos)] = .ok out := by
  have hmem : ∀ n l, assoc n twoRepos = some (.obj l) → 
      (n = "a".toList ∧ l = [("bindings".toList, .obj [("x".toList, .str "b".toList)]),
        ("repository".toList, .obj dirOfA)]) ∨
      (n = "b".toList ∧ l = [("repository".toList, .obj rootOfB), ("target_root".toList, .str "a".toList)]) := by
    intro n l h
    have := assoc_some_mem h
    simp only [twoRepos, List.mem_cons, List.not_mem_nil, or_false, Prod.mk.injEq, Json.obj.injEq] at this
    exact this
  have hda : Describes twoRepos "a".toList (.obj dirOfA) := .here rfl rfl (fun s e => nomatch e)
  have hdb : Describes twoRepos "b".toList (.obj rootOfB) := .here rfl rfl (fun s e => nomatch e)
  have hcb : IsComputed (.obj rootOfB) "a".toList "".toList "".toList (.obj []) false :=
    ⟨_, rfl, rfl, rfl, rfl, Or.inl ⟨rfl, rfl⟩, Or.inl ⟨rfl, rfl⟩⟩
  have hpa : Provided exampleEnv twoRepos "a".toList := by
    refine ⟨dirOfA, _, hda, .dir rfl rfl ?_ ?_, fun _ => ⟨_, rfl⟩⟩
    · rintro (⟨_, h, _⟩ | ⟨_, h, _⟩ | ⟨_, h, _⟩) <;> cases h
    · rintro ⟨_, h, _⟩; cases h
  have hpb : Provided exampleEnv twoRepos "b".toList :=
    ⟨rootOfB, _, hdb, .computed hcb, fun h => absurd h (by simp [rootOfB, field, assoc])⟩
  have hra : ∀ x, ¬ Refers twoRepos "a".toList x := by
    rintro x ⟨d, hd, hr⟩
    rw [hd.det hda] at hr
    rcases hr with ⟨_, _, _, _, r, e, h, _⟩ | ⟨_, r, e, h, _⟩ <;>
      · cases e; simp [dirOfA, field, assoc] at h
  have hca : Computable twoRepos "a".toList := .intro _ fun b hb => absurd hb (hra b)
  have hrb : ∀ x, Refers twoRepos "b".toList x → x = "a".toList :=
    fun x hx => refers_det hx ⟨_, hdb, Or.inl ⟨_, _, _, _, hcb⟩⟩
  have hcb' : Computable twoRepos "b".toList := .intro _ fun b hb => by rw [hrb b hb]; exact hca
  have hlayer : ∀ n k c, Layer twoRepos n k c → c = "a".toList := by
    rintro n k c ⟨hk, _, l, h1, h2⟩
    rcases hmem n l h1 with ⟨_, rfl⟩ | ⟨_, rfl⟩
    · have := assoc_some_mem h2
      simp only [List.mem_cons, List.not_mem_nil, or_false, Prod.mk.injEq, reduceCtorEq, and_false] at this
    · have := assoc_some_mem h2
      simp only [List.mem_cons, List.not_mem_nil, or_false, Prod.mk.injEq, reduceCtorEq, and_false, false_or,
        Json.str.injEq] at this
      exact this.2
  have hneed : ∀ n, Needed twoRepos "a".toList n → n = "a".toList ∨ n = "b".toList := by
    intro n hn
    induction hn with
    | main => exact Or.inl rfl
    | binds _ hb _ =>
      obtain ⟨bs, x, ⟨_, l, h1, h2⟩, h3⟩ := hb
      rcases hmem _ l h1 with ⟨_, rfl⟩ | ⟨_, rfl⟩
      · cases h2
        simp only [List.mem_cons, List.not_mem_nil, or_false, Prod.mk.injEq, Json.str.injEq] at h3
        exact Or.inr h3.2
      · cases h2
    | root _ hb ih =>
      rcases ih with rfl | rfl
      · exact absurd hb (hra _)
      · exact Or.inl (hrb _ hb)
    | layer _ hl hb ih =>
      rw [hlayer _ _ _ hl] at hb
      exact absurd hb (hra _)
  refine C95_succeeds (m := "a".toList) rfl (Or.inr (Or.inr ⟨rfl, rfl, by simp [twoRepos], ?_⟩)) rfl
    (fun n hn => ⟨?_, fun k c hl => by rw [hlayer n k c hl]; exact hpa⟩)
    (fun n hn => ⟨?_, fun k c hl => by rw [hlayer n k c hl]; exact hca⟩) (fun n k v hn hk hv => ?_)
  · intro k hk
    simp only [twoRepos, List.map_cons, List.map_nil, List.mem_cons, List.not_mem_nil, or_false] at hk
    rcases hk with rfl | rfl <;> decide
  · rcases hneed n hn with rfl | rfl
    · exact hpa
    · exact hpb
  · rcases hneed n hn with rfl | rfl
    · exact hca
    · exact hcb'
  · obtain ⟨_, l, h1, h2⟩ := hv
    rcases hmem n l h1 with ⟨_, rfl⟩ | ⟨_, rfl⟩
    · rcases hk with rfl | rfl | rfl <;> simp [assoc] at h2
    · rcases hk with rfl | rfl | rfl <;> simp [assoc] at h2
      exact ⟨_, h2.symm⟩

/-- A repository whose root is described by itself is not accepted. -/
example : (match generate exampleEnv ⟨none, false, false⟩
      [("repositories".toList, .obj [("a".toList, .obj [("repository".toList, .obj
        [("repo".toList, .str "a".toList), ("target".toList, .arr [.str "".toList, .str "".toList]),
         ("type".toList, .str "computed".toList)])])])] with | .fail => true | _ => false) = true := by
  decide +kernel

end Verif.MrConfig
