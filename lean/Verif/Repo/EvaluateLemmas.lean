import Verif.Repo.Evaluate
import Mathlib.Logic.Relation
import Mathlib.Data.Fintype.Basic
import Mathlib.Data.Set.Finite.List

/-!
# Evaluation of the roots that have to be computed before the build: specification and invariant (C108)
-/

namespace Verif.Evaluate

open Verif Relation

/-! ## Specification -/

/-- `m` can be reached from `n` by the names repositories give to each other. -/
inductive Reach (C : Config) (n : Str) : Str → Prop
  | refl : Reach C n n
  | step {m x l : Str} {i : Info} : Reach C n m → assoc m C = some i → (l, x) ∈ i.names → Reach C n x

/-- The root `k` has to be computed before repository `n` can be used. -/
def Needs (C : Config) (n : Str) (k : Pre) : Prop := ∃ m i, Reach C n m ∧ assoc m C = some i ∧ Root.pre k ∈ i.roots

/-- The root `k` can only be computed after the root `k'`. -/
def Dep (C : Config) (k k' : Pre) : Prop := Needs C k.repository k'

/-- The root `k` has to be computed, possibly only in order to compute other roots. -/
def Wanted (C : Config) (main : Str) (k : Pre) : Prop := ∃ k₀, Needs C main k₀ ∧ ReflTransGen (Dep C) k₀ k

/-- What is left if it is forgotten whether the content of a root is available locally. -/
def Root.forget : Root → Root
  | .absent t => .present t
  | r => r

/-- The same for all roots of a repository. -/
def Info.forget (i : Info) : Info :=
  ⟨i.workspace.forget, i.target.forget, i.rule.forget, i.expression.forget, i.names⟩

/-- The repositories `n` depends on have the same content. -/
def Same (C C' : Config) (n : Str) : Prop :=
  ∀ m, Reach C n m → (assoc m C).map Info.forget = (assoc m C').map Info.forget

/-- The tree of a target depends only on the content of the repositories its repository depends on; the structure of a
structure is the structure itself (C81). -/
structure World.OK (W : World) : Prop where
  same : ∀ k C C' t, Same C C' k.repository → W.tree k C t → W.tree k C' t
  fixed : ∀ t, W.structure_ (W.structure_ t) = W.structure_ t

/-- The tree a root to be computed stands for: that of the artifacts of the target, or the structure of the workspace of
the repository. -/
def Stands (W : World) (C : Config) : Pre → Str → Prop
  | .computed r m n c a, t => W.tree (.computed r m n c a) C t
  | .tree r _, t => ∃ i w, assoc r C = some i ∧ i.workspace.treeHash = some w ∧ t = W.structure_ w

/-- A root is right for a key: it has the tree this stands for, and is absent only if the key allows this. -/
def Right (W : World) (C : Config) (k : Pre) (r : Root) : Prop :=
  ∃ t, Stands W C k t ∧ (r = .present t ∨ r = .absent t ∧ k.absent = true)

/-- What becomes of a root. -/
def Becomes (W : World) (C : Config) : Root → Root → Prop
  | .pre k, r => Right W C k r
  | r, r' => r' = r

/-! ## The traversal -/

theorem mem_pres {i : Info} {k : Pre} : k ∈ i.pres ↔ Root.pre k ∈ i.roots := by
  unfold Info.pres
  rw [List.mem_filterMap]
  constructor
  · rintro ⟨r, hr, h⟩
    cases r <;> simp only [Root.description, reduceCtorEq, Option.some.injEq] at h
    subst h
    exact hr
  · exact fun h => ⟨_, h, rfl⟩

/-- What a traversal of the repositories `ms` does. -/
structure Visited (C : Config) (ms : List Str) (a b : List Pre × List Str) : Prop where
  sub : ∀ x ∈ a.2, x ∈ b.2
  all : ∀ m ∈ ms, m ∈ b.2
  reach : ∀ x ∈ b.2, x ∈ a.2 ∨ ∃ m ∈ ms, Reach C m x
  closed : ∀ x ∈ b.2, x ∉ a.2 → ∀ i, assoc x C = some i → ∀ p ∈ i.names, p.2 ∈ b.2
  roots : ∀ k, k ∈ b.1 ↔ k ∈ a.1 ∨ ∃ x ∈ b.2, x ∉ a.2 ∧ ∃ i, assoc x C = some i ∧ k ∈ i.pres

theorem Visited.nil (C : Config) (a : List Pre × List Str) : Visited C [] a a :=
  ⟨fun _ h => h, fun _ h => (nomatch h), fun _ h => .inl h, fun _ h h' => absurd h h',
    fun _ => ⟨.inl, fun h => h.elim id fun ⟨_, h, h', _⟩ => absurd h h'⟩⟩

theorem Visited.trans {C : Config} {ms ms' : List Str} {a b c : List Pre × List Str} (h : Visited C ms a b)
    (h' : Visited C ms' b c) : Visited C (ms ++ ms') a c := by
  refine ⟨fun x hx => h'.sub x (h.sub x hx), fun m hm => ?_, fun x hx => ?_, fun x hx hn i hi p hp => ?_, fun k => ?_⟩
  · rcases List.mem_append.1 hm with hm | hm
    · exact h'.sub _ (h.all m hm)
    · exact h'.all m hm
  · rcases h'.reach x hx with hb | ⟨m, hm, hr⟩
    · rcases h.reach x hb with ha | ⟨m, hm, hr⟩
      · exact .inl ha
      · exact .inr ⟨m, List.mem_append_left _ hm, hr⟩
    · exact .inr ⟨m, List.mem_append_right _ hm, hr⟩
  · by_cases hb : x ∈ b.2
    · exact h'.sub _ (h.closed x hb hn i hi p hp)
    · exact h'.closed x hx hb i hi p hp
  · rw [h'.roots, h.roots]
    constructor
    · rintro ((hk | ⟨x, hx, hn, r⟩) | ⟨x, hx, hn, r⟩)
      · exact .inl hk
      · exact .inr ⟨x, h'.sub x hx, hn, r⟩
      · exact .inr ⟨x, hx, fun ha => hn (h.sub x ha), r⟩
    · rintro (hk | ⟨x, hx, hn, r⟩)
      · exact .inl (.inl hk)
      · by_cases hb : x ∈ b.2
        · exact .inl (.inr ⟨x, hb, hn, r⟩)
        · exact .inr ⟨x, hx, hb, r⟩

theorem visitAll_spec {C : Config} {f : Str → List Pre × List Str → Option (List Pre × List Str)}
    (hf : ∀ m a b, f m a = some b → Visited C [m] a b) : ∀ (l : List (Str × Str)) (a b : List Pre × List Str),
    visitAll f l a = some b → Visited C (l.map Prod.snd) a b
  | [], a, b, h => by
    injection h with h
    subst h
    exact Visited.nil C a
  | (n, m) :: t, a, b, h => by
    simp only [visitAll, Option.bind_eq_some_iff] at h
    obtain ⟨c, hc, h⟩ := h
    exact (hf m a c hc).trans (visitAll_spec hf t c b h)

theorem visit_spec {C : Config} : ∀ (n : Nat) (m : Str) (a b : List Pre × List Str), visit C n m a = some b →
    Visited C [m] a b
  | 0, _, _, _, h => nomatch h
  | n + 1, m, (roots, seen), b, h => by
    unfold visit at h
    split at h
    · next hm =>
      injection h with h
      subst h
      exact ⟨fun _ h => h, fun x hx => by rwa [List.mem_singleton.1 hx], fun _ h => .inl h, fun _ h h' => absurd h h',
        fun k => ⟨.inl, fun h => h.elim id fun ⟨_, h, h', _⟩ => absurd h h'⟩⟩
    · next hm =>
      split at h
      · next hi =>
        injection h with h
        subst h
        refine ⟨fun x hx => List.mem_cons_of_mem _ hx, fun x hx => by rw [List.mem_singleton.1 hx]; exact List.mem_cons_self,
          fun x hx => ?_, fun x hx hn i hx' => ?_, fun k => ⟨.inl, fun h => h.elim id ?_⟩⟩
        · rcases List.mem_cons.1 hx with rfl | hx
          · exact .inr ⟨_, List.mem_cons_self, .refl⟩
          · exact .inl hx
        · rcases List.mem_cons.1 hx with rfl | hx
          · rw [hi] at hx'
            exact nomatch hx'
          · exact absurd hx hn
        · rintro ⟨x, hx, hn, i, hx', _⟩
          rcases List.mem_cons.1 hx with rfl | hx
          · rw [hi] at hx'
            exact nomatch hx'
          · exact absurd hx hn
      · next i hi =>
        have hv := visitAll_spec (fun m a b => visit_spec n m a b) _ _ _ h
        refine ⟨fun x hx => hv.sub x (List.mem_cons_of_mem _ hx),
          fun x hx => by rw [List.mem_singleton.1 hx]; exact hv.sub _ List.mem_cons_self, fun x hx => ?_,
          fun x hx hn j hj p hp => ?_, fun k => ?_⟩
        · rcases hv.reach x hx with hx | ⟨y, hy, hr⟩
          · rcases List.mem_cons.1 hx with rfl | hx
            · exact .inr ⟨_, List.mem_cons_self, .refl⟩
            · exact .inl hx
          · obtain ⟨⟨l, y'⟩, hp, rfl⟩ := List.mem_map.1 hy
            refine .inr ⟨m, List.mem_cons_self, ?_⟩
            clear hx hy
            induction hr with
            | refl => exact .step .refl hi hp
            | step _ h1 h2 ih => exact .step ih h1 h2
        · by_cases hxm : x = m
          · subst hxm
            rw [hi] at hj
            injection hj with hj
            subst hj
            exact hv.all _ (List.mem_map_of_mem (f := Prod.snd) hp)
          · exact hv.closed x hx (fun h => (List.mem_cons.1 h).elim hxm hn) j hj p hp
        · rw [hv.roots]
          simp only [List.mem_append]
          constructor
          · rintro ((hk | hk) | ⟨x, hx, hn, r⟩)
            · exact .inl hk
            · exact .inr ⟨m, hv.sub _ List.mem_cons_self, hm, i, hi, hk⟩
            · exact .inr ⟨x, hx, fun h => hn (List.mem_cons_of_mem _ h), r⟩
          · rintro (hk | ⟨x, hx, hn, j, hj, hk⟩)
            · exact .inl (.inl hk)
            · by_cases hxm : x = m
              · subst hxm
                rw [hi] at hj
                injection hj with hj
                subst hj
                exact .inl (.inr hk)
              · exact .inr ⟨x, hx, fun h => (List.mem_cons.1 h).elim hxm hn, j, hj, hk⟩

/-- The known repositories not seen yet. -/
def fresh (C : Config) (seen : List Str) : Nat := C.countP fun p => decide (p.1 ∉ seen)

theorem fresh_mono {C : Config} {s s' : List Str} (h : ∀ x ∈ s, x ∈ s') : fresh C s' ≤ fresh C s := by
  unfold fresh
  refine List.countP_mono_left fun p _ hp => ?_
  simp only [decide_eq_true_eq] at hp ⊢
  exact fun hs => hp (h _ hs)

theorem fresh_lt {C : Config} {s : List Str} {m : Str} {i : Info} (hi : assoc m C = some i) (hm : m ∉ s) :
    fresh C (m :: s) < fresh C s := by
  unfold fresh
  induction C with
  | nil => exact nomatch hi
  | cons p C ih =>
    rw [List.countP_cons, List.countP_cons]
    have hle : List.countP (fun p : Str × Info => decide (p.1 ∉ m :: s)) C ≤ List.countP (fun p => decide (p.1 ∉ s)) C :=
      fresh_mono (fun x hx => List.mem_cons_of_mem _ hx)
    by_cases hp : m = p.1
    · subst hp
      rw [if_neg (by simp), if_pos (by simpa using hm)]
      omega
    · have := ih (by simpa only [assoc, if_neg hp] using hi)
      by_cases hs : p.1 ∈ s
      · rw [if_neg (by simp [hs]), if_neg (by simp [hs])]
        omega
      · rw [if_pos (by simp [hs, Ne.symm hp]), if_pos (by simpa using hs)]
        omega

theorem visitAll_some {C : Config} {n : Nat}
    (hf : ∀ m a, fresh C a.2 + 1 ≤ n → ∃ b, visit C n m a = some b) : ∀ (l : List (Str × Str)) (a : List Pre × List Str),
    fresh C a.2 + 1 ≤ n → ∃ b, visitAll (visit C n) l a = some b
  | [], a, _ => ⟨a, rfl⟩
  | (x, m) :: t, a, h => by
    obtain ⟨b, hb⟩ := hf m a h
    have hs := (visit_spec n m a b hb).sub
    obtain ⟨c, hc⟩ := visitAll_some hf t b (Nat.le_trans (Nat.succ_le_succ (fresh_mono hs)) h)
    exact ⟨c, by rw [visitAll, hb]; exact hc⟩

theorem visit_some {C : Config} : ∀ (n : Nat) (m : Str) (a : List Pre × List Str), fresh C a.2 + 1 ≤ n →
    ∃ b, visit C n m a = some b
  | 0, _, _, h => by omega
  | n + 1, m, (roots, seen), h => by
    unfold visit
    split
    · exact ⟨_, rfl⟩
    · next hm =>
      cases hi : assoc m C with
      | none => exact ⟨_, rfl⟩
      | some i =>
        have := fresh_lt hi hm
        simp only at h
        exact visitAll_some (fun m a => visit_some n m a) _ _ (show fresh C (m :: seen) + 1 ≤ n by omega)

/-- `GetRootDeps` finds the roots that have to be computed first. -/
theorem mem_rootDeps {C : Config} {n : Str} {k : Pre} : k ∈ rootDeps C n ↔ Needs C n k := by
  have hle : fresh C [] ≤ C.length := List.countP_le_length
  obtain ⟨b, hb⟩ := visit_some (C := C) (C.length + 2) n ([], []) (show fresh C [] + 1 ≤ _ by omega)
  have hv := visit_spec _ _ _ _ hb
  unfold rootDeps
  rw [hb]
  obtain ⟨r, seen⟩ := b
  show k ∈ r ↔ _
  rw [hv.roots k]
  constructor
  · rintro (h | ⟨x, hx, _, i, hi, hk⟩)
    · exact nomatch h
    · rcases hv.reach x hx with h | ⟨m, hm, hr⟩
      · exact nomatch h
      · rw [List.mem_singleton.1 hm] at hr
        exact ⟨x, i, hr, hi, mem_pres.1 hk⟩
  · rintro ⟨m, i, hr, hi, hk⟩
    refine .inr ⟨m, ?_, fun h => (nomatch h), i, hi, mem_pres.2 hk⟩
    clear hi hk
    induction hr with
    | refl => exact hv.all _ List.mem_cons_self
    | step _ h1 h2 ih => exact hv.closed _ ih (fun h => nomatch h) _ h1 _ h2

/-! ## Configurations with some roots replaced -/

/-- A root, with the roots in `σ` replaced. -/
def Root.sub (σ : Pre → Option Root) : Root → Root
  | .pre k => (σ k).getD (.pre k)
  | r => r

/-- The same for all roots of a repository. -/
def Info.sub (σ : Pre → Option Root) (i : Info) : Info :=
  ⟨i.workspace.sub σ, i.target.sub σ, i.rule.sub σ, i.expression.sub σ, i.names⟩

/-- The same for all repositories. -/
def sub (σ : Pre → Option Root) (C : Config) : Config := C.map fun p => (p.1, p.2.sub σ)

theorem assoc_map {f : Info → Info} (m : Str) : ∀ C : Config, assoc m (C.map fun p => (p.1, f p.2)) = (assoc m C).map f
  | [] => rfl
  | p :: C => by
    simp only [List.map_cons, assoc]
    split
    · rfl
    · exact assoc_map m C

theorem assoc_sub (σ : Pre → Option Root) (m : Str) (C : Config) : assoc m (sub σ C) = (assoc m C).map (Info.sub σ) :=
  assoc_map m C

theorem reach_sub {σ : Pre → Option Root} {C : Config} {n m : Str} : Reach (sub σ C) n m ↔ Reach C n m := by
  constructor
  · intro h
    induction h with
    | refl => exact .refl
    | step _ h1 h2 ih =>
      rw [assoc_sub, Option.map_eq_some_iff] at h1
      obtain ⟨i, hi, rfl⟩ := h1
      exact .step ih hi h2
  · intro h
    induction h with
    | refl => exact .refl
    | @step m x l i _ h1 h2 ih =>
      exact .step ih (i := i.sub σ) (by rw [assoc_sub, h1]; rfl) h2

theorem roots_sub {σ : Pre → Option Root} {i : Info} : (i.sub σ).roots = i.roots.map (Root.sub σ) := rfl

/-- No root is replaced by one to be computed. -/
def Final (σ : Pre → Option Root) : Prop := ∀ k v, σ k = some v → v.description = none

theorem sub_pre {σ : Pre → Option Root} (h : Final σ) {r : Root} {k : Pre} :
    r.sub σ = .pre k ↔ r = .pre k ∧ σ k = none := by
  cases r with
  | pre j =>
    simp only [Root.sub, Root.pre.injEq]
    cases hj : σ j with
    | none =>
      simp only [Option.getD_none, Root.pre.injEq]
      exact ⟨fun e => ⟨e, e ▸ hj⟩, fun e => e.1⟩
    | some v =>
      simp only [Option.getD_some]
      constructor
      · rintro rfl
        exact nomatch h _ _ hj
      · rintro ⟨rfl, e⟩
        rw [hj] at e
        exact nomatch e
  | _ => simp only [Root.sub, reduceCtorEq, false_and]

theorem needs_sub {σ : Pre → Option Root} (h : Final σ) {C : Config} {n : Str} {k : Pre} :
    Needs (sub σ C) n k ↔ Needs C n k ∧ σ k = none := by
  constructor
  · rintro ⟨m, i, hr, hi, hk⟩
    rw [assoc_sub, Option.map_eq_some_iff] at hi
    obtain ⟨j, hj, rfl⟩ := hi
    rw [roots_sub, List.mem_map] at hk
    obtain ⟨r, hr', e⟩ := hk
    obtain ⟨rfl, he⟩ := (sub_pre h).1 e
    exact ⟨⟨m, j, reach_sub.1 hr, hj, hr'⟩, he⟩
  · rintro ⟨⟨m, i, hr, hi, hk⟩, e⟩
    refine ⟨m, i.sub σ, reach_sub.2 hr, by rw [assoc_sub, hi]; rfl, ?_⟩
    rw [roots_sub]
    exact List.mem_map.2 ⟨_, hk, (sub_pre h).2 ⟨rfl, e⟩⟩

/-- One more root is replaced. -/
def replace (σ : Pre → Option Root) (k : Pre) (v : Root) : Pre → Option Root := fun x => if x = k then some v else σ x

theorem set_pos {r v : Root} {k : Pre} (h : r.description = some k) : r.set k v = v := if_pos h

theorem set_neg {r v : Root} {k : Pre} (h : r.description ≠ some k) : r.set k v = r := if_neg h

theorem set_sub {σ : Pre → Option Root} (h : Final σ) {k : Pre} {v : Root} (hk : σ k = none) (r : Root) :
    (r.sub σ).set k v = r.sub (replace σ k v) := by
  cases r with
  | pre j =>
    by_cases hj : j = k
    · subst hj
      simp only [Root.sub, replace, if_true, hk, Option.getD_none, Option.getD_some]
      exact set_pos rfl
    · simp only [Root.sub, replace, if_neg hj]
      cases he : σ j with
      | none => exact set_neg (fun e => hj (Option.some.inj e))
      | some w => exact set_neg (by rw [Option.getD_some, h _ _ he]; exact nofun)
  | _ => exact set_neg nofun

theorem setRoot_sub {σ : Pre → Option Root} (h : Final σ) {k : Pre} {v : Root} (hk : σ k = none) (C : Config) :
    setRoot k v (sub σ C) = sub (replace σ k v) C := by
  unfold setRoot sub
  rw [List.map_map]
  refine List.map_congr_left fun p _ => ?_
  simp only [Function.comp, Info.set, Info.sub, set_sub h hk]

theorem treeHash_forget (r : Root) : r.forget.treeHash = r.treeHash := by cases r <;> rfl

theorem sub_forget {σ τ : Pre → Option Root} {r : Root}
    (h : ∀ d, r = .pre d → (σ d).map Root.forget = (τ d).map Root.forget) : (r.sub σ).forget = (r.sub τ).forget := by
  cases r with
  | pre d =>
    have hd := h d rfl
    simp only [Root.sub]
    cases hs : σ d with
    | none =>
      cases ht : τ d with
      | none => rfl
      | some w =>
        rw [hs, ht] at hd
        exact nomatch hd
    | some u =>
      cases ht : τ d with
      | none =>
        rw [hs, ht] at hd
        exact nomatch hd
      | some w =>
        rw [hs, ht] at hd
        exact Option.some.inj hd
  | _ => rfl

theorem info_forget {σ τ : Pre → Option Root} {i : Info}
    (h : ∀ d, Root.pre d ∈ i.roots → (σ d).map Root.forget = (τ d).map Root.forget) :
    (i.sub σ).forget = (i.sub τ).forget := by
  have hr : ∀ r ∈ i.roots, (r.sub σ).forget = (r.sub τ).forget := fun r hr => sub_forget fun d e => h d (e ▸ hr)
  unfold Info.forget Info.sub
  simp only [Info.mk.injEq, and_true]
  exact ⟨hr _ (by simp [Info.roots]), hr _ (by simp [Info.roots]), hr _ (by simp [Info.roots]), hr _ (by simp [Info.roots])⟩

theorem same_sub {σ τ : Pre → Option Root} {C : Config} {n : Str}
    (h : ∀ d, Needs C n d → (σ d).map Root.forget = (τ d).map Root.forget) : Same (sub σ C) (sub τ C) n := by
  intro m hm
  rw [reach_sub] at hm
  rw [assoc_sub, assoc_sub]
  cases hi : assoc m C with
  | none => rfl
  | some i =>
    simp only [Option.map_some, Option.some.injEq]
    exact info_forget fun d hd => h d ⟨m, i, hm, hi, hd⟩

/-- What a root stands for depends only on the roots that are computed before. -/
theorem Stands.change {W : World} (hW : W.OK) {C : Config} {σ τ : Pre → Option Root} {k : Pre} {t : Str}
    (hd : ∀ d, Dep C k d → (σ d).map Root.forget = (τ d).map Root.forget) (h : Stands W (sub σ C) k t) :
    Stands W (sub τ C) k t := by
  have hs := same_sub hd
  cases k with
  | computed r m n c a => exact hW.same _ _ _ _ hs h
  | tree r a =>
    obtain ⟨i, w, hi, hw, rfl⟩ := h
    have := hs r .refl
    rw [hi] at this
    simp only [Option.map_some] at this
    obtain ⟨j, hj, e⟩ := Option.map_eq_some_iff.1 this.symm
    refine ⟨j, w, hj, ?_, rfl⟩
    rw [← hw, ← treeHash_forget j.workspace, ← treeHash_forget i.workspace]
    exact congrArg (fun i : Info => i.workspace.treeHash) e

theorem Right.change {W : World} (hW : W.OK) {C : Config} {σ τ : Pre → Option Root} {k : Pre} {v : Root}
    (hd : ∀ d, Dep C k d → σ d = τ d) (h : Right W (sub σ C) k v) : Right W (sub τ C) k v := by
  obtain ⟨t, ht, hv⟩ := h
  exact ⟨t, ht.change hW (fun d h => by rw [hd d h]), hv⟩

theorem Right.final {W : World} {C : Config} {k : Pre} {v : Root} (h : Right W C k v) : v.description = none := by
  obtain ⟨t, _, rfl | ⟨rfl, _⟩⟩ := h <;> rfl

/-! ## The states that can occur -/

/-- The evaluation has begun. -/
def Phase.Past : Phase → Prop
  | .inquiring | .building | .ready _ | .setting _ | .done _ => True
  | _ => False

/-- The root, once it is determined. -/
def Phase.value : Phase → Option Root
  | .ready r | .setting r | .done r => some r
  | _ => Option.none

/-- The roots that are set. -/
def State.values (s : State) (k : Pre) : Option Root :=
  match s.phase k with
  | .done v => some v
  | _ => none

theorem values_some {s : State} {k : Pre} {v : Root} : s.values k = some v ↔ s.phase k = .done v := by
  unfold State.values
  cases s.phase k <;> simp

/-- The phases only some keys can be in. -/
def Fits (W : World) (C : Config) (k : Pre) : Phase → Prop
  | .inquiring => (∃ r m n c, k = .computed r m n c true) ∧ W.serve = true ∧ W.native = true
  | .building => ∃ r m n c a, k = .computed r m n c a
  | .crashed => (∃ r m n c, k = .computed r m n c true ∧ assoc r C = none) ∧ W.native = true
  | _ => True

structure Inv (W : World) (C : Config) (main : Str) (s : State) : Prop where
  config : s.config = sub s.values C
  wanted : ∀ k, s.phase k ≠ .none → Wanted C main k
  top : ∀ k, Needs C main k → s.phase k ≠ .none
  wait : ∀ k deps, s.phase k = .waiting deps → (∀ k', Dep C k k' → k' ∈ deps ∨ ∃ v, s.phase k' = .done v) ∧
    ∀ d ∈ deps, Dep C k d ∧ s.phase d ≠ .none
  past : ∀ k, (s.phase k).Past → ∀ k', Dep C k k' → ∃ v, s.phase k' = .done v
  acc : ∀ k, (s.phase k).Past → Acc (fun a b => Dep C b a) k
  right : ∀ k v, (s.phase k).value = some v → Right W s.config k v
  fits : ∀ k, Fits W C k (s.phase k)

theorem Inv.final {W : World} {C : Config} {main : Str} {s : State} (h : Inv W C main s) : Final s.values := by
  intro k v hv
  exact (h.right k v (by rw [values_some.1 hv]; rfl)).final

/-- The evaluation of one key continues, without being done. -/
theorem Inv.go {W : World} {C : Config} {main : Str} {s : State} (h : Inv W C main s) {k : Pre} {p : Phase}
    (h0 : s.phase k ≠ .none) (h1 : ∀ v, s.phase k ≠ .done v) (h2 : p ≠ .none) (h3 : ∀ v, p ≠ .done v)
    (h4 : ∀ d, p ≠ .waiting d) (h5 : p.Past → ∀ k', Dep C k k' → ∃ v, s.phase k' = .done v)
    (h6 : ∀ v, p.value = some v → Right W s.config k v) (h7 : Fits W C k p) (served : List Str) (cached : List Pre) :
    Inv W C main { s.go k p with served := served, cached := cached } := by
  have hdone : ∀ x v, (s.go k p).phase x = .done v ↔ s.phase x = .done v := by
    intro x v
    unfold State.go
    simp only
    split
    · next e =>
      subst e
      exact ⟨fun h => absurd h (h3 v), fun h => absurd h (h1 v)⟩
    · exact Iff.rfl
  have hval : (s.go k p).values = s.values := by
    funext x
    refine Option.ext fun v => ?_
    rw [values_some, values_some, hdone]
  have hphase : ∀ x, (s.go k p).phase x = if x = k then p else s.phase x := fun _ => rfl
  refine ⟨?_, fun x hx => ?_, fun x hx => ?_, fun x deps hx => ?_, fun x hx k' hk' => ?_, fun x hx => ?_, fun x v hx => ?_,
    fun x => ?_⟩
  · exact h.config.trans (by rw [← hval]; rfl)
  · simp only [hphase] at hx
    split at hx
    · next e => exact e ▸ h.wanted k h0
    · exact h.wanted x hx
  · simp only [hphase]
    split
    · exact h2
    · exact h.top x hx
  · simp only [hphase] at hx
    split at hx
    · exact absurd hx (h4 deps)
    · obtain ⟨ha, hb⟩ := h.wait x deps hx
      refine ⟨fun k' hk' => (ha k' hk').imp id fun ⟨v, hv⟩ => ⟨v, (hdone k' v).2 hv⟩, fun d hd => ⟨(hb d hd).1, ?_⟩⟩
      simp only [hphase]
      split
      · exact h2
      · exact (hb d hd).2
  · simp only [hphase] at hx
    split at hx
    · next e =>
      subst e
      obtain ⟨v, hv⟩ := h5 hx k' hk'
      exact ⟨v, (hdone k' v).2 hv⟩
    · obtain ⟨v, hv⟩ := h.past x hx k' hk'
      exact ⟨v, (hdone k' v).2 hv⟩
  · simp only [hphase] at hx
    split at hx
    · next e =>
      subst e
      refine Acc.intro _ fun y hy => ?_
      obtain ⟨v, hv⟩ := h5 hx y hy
      exact h.acc y (by rw [hv]; trivial)
    · exact h.acc x hx
  · simp only [hphase] at hx
    split at hx
    · next e => exact e ▸ h6 v hx
    · exact h.right x v hx
  · simp only [hphase]
    split
    · next e => exact e ▸ h7
    · exact h.fits x

theorem Inv.waited {W : World} {C : Config} {main : Str} {s : State} (h : Inv W C main s) {k : Pre} {deps : List Pre}
    (hk : s.phase k = .waiting deps) (hd : ∀ d ∈ deps, ∃ v, s.phase d = .done v) :
    ∀ k', Dep C k k' → ∃ v, s.phase k' = .done v :=
  fun k' hk' => ((h.wait k deps hk).1 k' hk').elim (hd k') id

theorem next_phase (n : Next) : n.phase ≠ .none ∧ (∀ v, n.phase ≠ .done v) ∧ ∀ d, n.phase ≠ .waiting d := by
  cases n <;> exact ⟨nofun, nofun, nofun⟩

theorem next_value {n : Next} {v : Root} : n.phase.value = some v ↔ n = .set v := by
  cases n <;> simp [Next.phase, Phase.value]

theorem ask_ne (serve native absent : Bool) (target : Option Root) (r : Root) : ask serve native absent target ≠ .set r := by
  unfold ask
  repeat' split
  all_goals exact nofun

theorem afterLookup_set {n : Next} (hn : ∀ r, n ≠ .set r) {l : Lookup} {r : Root} (h : afterLookup n l = .set r) :
    ∃ t, l = .hit t (some true) true ∧ r = .present t := by
  cases l with
  | error => exact nomatch h
  | miss => exact absurd h (hn r)
  | hit t g o =>
    cases g with
    | none => exact nomatch h
    | some g =>
      cases g with
      | false => exact absurd h (hn r)
      | true =>
        cases o with
        | false => exact nomatch h
        | true =>
          injection h with h
          exact ⟨t, rfl, h.symm⟩

theorem afterBuild_set {serve absent : Bool} {b : Built} {r : Root} (h : afterBuild serve absent b = .set r) :
    ∃ t, b.tree = some t ∧ r = .present t := by
  unfold afterBuild at h
  split at h
  · exact nomatch h
  · next t ht =>
    refine ⟨t, ht, ?_⟩
    repeat' split at h
    all_goals first | (injection h with h; exact h.symm) | exact nomatch h

/-- What the evaluation of the structure of a tree gives is the structure, absent if and only if this is asked for. -/
theorem resolve_set {W : World} (hW : W.OK) {absent : Bool} {w : Option Root} {a : Resolved} {v : Root}
    (hr : ∀ r t, w = some r → r.treeHash = some t → a.Right W t) (h : resolve W.serve absent w a = .set v) :
    ∃ r t, w = some r ∧ r.treeHash = some t ∧
      v = if absent then .absent (W.structure_ t) else .present (W.structure_ t) := by
  unfold resolve at h
  split at h
  · exact nomatch h
  · next ref =>
    split at h
    · exact nomatch h
    · next t ht =>
      obtain ⟨r1, r2, r3, r4⟩ := hr ref t rfl ht
      rw [hW.fixed] at r3 r4
      refine ⟨ref, t, rfl, ht, ?_⟩
      split at h
      · exact nomatch h
      · next found hf =>
        have hfound : ∀ s, found = some s → s = W.structure_ t := by
          rintro s rfl
          unfold localFirst at hf
          split at hf
          · exact r1 s hf
          · exact nomatch hf
        split at h
        · exact nomatch h
        · next remote hs =>
          have hremote : ∀ s, remote = some s → s = W.structure_ t := by
            rintro s rfl
            unfold serveThen at hs
            split at hs
            · split at hs
              · exact nomatch hs
              · rw [Option.map_eq_some_iff] at hs
                obtain ⟨x, hx, e⟩ := hs
                injection e with e
                exact r2 s (e ▸ hx)
            · exact nomatch hs
          split at h
          · exact nomatch h
          · next found' hg =>
            have hfound' : ∀ s, found' = some s → s = W.structure_ t := by
              rintro s rfl
              unfold fetch at hg
              split at hg
              · split at hg
                · exact nomatch hg
                · next x hx =>
                  injection hg with hg
                  injection hg with hg
                  exact r3 s (hg ▸ hx)
                · split at hg
                  · exact nomatch hg
                  · exact r4 s hg
              · injection hg with hg
                exact hfound s hg
            unfold finishStructure at h
            split at h
            · next s =>
              injection h with h
              rw [← h, hremote s rfl]
              rfl
            · next s =>
              have := hfound' s rfl
              subst this
              repeat' split at h
              all_goals first | (injection h with h; exact h.symm) | exact nomatch h
            · next s =>
              have := hfound' s rfl
              subst this
              repeat' split at h
              all_goals first | (injection h with h; exact h.symm) | exact nomatch h
            · exact nomatch h

theorem inv_start (W : World) (C : Config) (main : Str) : Inv W C main (start C main) := by
  classical
  have hp : ∀ k, (start C main).phase k = if Needs C main k then .requested else .none := by
    intro k
    unfold start State.request
    simp only [and_true, mem_rootDeps]
  have hv : (start C main).values = fun _ => none := by
    funext k
    unfold State.values
    rw [hp k]
    split
    · next h => split at h <;> exact nomatch h
    · rfl
  have hsub : ∀ r : Root, r.sub (fun _ => none) = r := by
    intro r
    cases r <;> rfl
  refine ⟨?_, fun k hk => ?_, fun k hk => ?_, fun k deps hk => ?_, fun k hk => ?_, fun k hk => ?_, fun k v hk => ?_,
    fun k => ?_⟩
  · rw [hv]
    show C = _
    unfold sub
    symm
    refine (List.map_congr_left fun p _ => ?_).trans (List.map_id C)
    unfold Info.sub
    simp only [hsub]
    rfl
  · rw [hp] at hk
    split at hk
    · next h => exact ⟨k, h, .refl⟩
    · exact absurd rfl hk
  · rw [hp, if_pos hk]
    exact nofun
  all_goals
    first
    | (rw [hp] at hk; split at hk <;> exact nomatch hk)
    | (rw [hp]; split <;> trivial)

theorem inv_create {W : World} {C : Config} {main : Str} {s : State} (h : Inv W C main s) {k : Pre}
    (hk : s.phase k = .requested) :
    Inv W C main ((s.go k (.waiting (rootDeps s.config k.repository))).request (rootDeps s.config k.repository)) := by
  generalize hD : rootDeps s.config k.repository = D
  have hmem : ∀ d, d ∈ D ↔ Dep C k d ∧ s.values d = none := by
    intro d
    rw [← hD, mem_rootDeps, h.config, needs_sub h.final]
    exact Iff.rfl
  generalize hs : (s.go k (.waiting D)).request D = s'
  have hp : ∀ x, s'.phase x = if x = k then .waiting D else if x ∈ D ∧ s.phase x = .none then .requested else s.phase x := by
    intro x
    rw [← hs]
    unfold State.request State.go
    simp only
    by_cases hx : x = k
    · rw [if_pos hx, if_pos hx, if_neg (fun h => nomatch h.2)]
    · rw [if_neg hx, if_neg hx]
  have hdone : ∀ x v, s'.phase x = .done v ↔ s.phase x = .done v := by
    intro x v
    rw [hp]
    split
    · next e =>
      subst e
      rw [hk]
      exact ⟨nofun, nofun⟩
    · split
      · next e =>
        rw [e.2]
        exact ⟨nofun, nofun⟩
      · exact Iff.rfl
  have hval : s'.values = s.values := by
    funext x
    refine Option.ext fun v => ?_
    rw [values_some, values_some, hdone]
  have hc : s'.config = s.config := by rw [← hs]; rfl
  have hnone : ∀ x, s.phase x ≠ .none → s'.phase x ≠ .none := by
    intro x hx
    rw [hp]
    split
    · exact nofun
    · split
      · exact nofun
      · exact hx
  have hpast : ∀ x, (s'.phase x).Past → (s.phase x).Past := by
    intro x hx
    rw [hp] at hx
    split at hx
    · exact hx.elim
    · split at hx
      · exact hx.elim
      · exact hx
  refine ⟨?_, fun x hx => ?_, fun x hx => hnone x (h.top x hx), fun x deps hx => ?_, fun x hx k' hk' => ?_, fun x hx => ?_,
    fun x v hx => ?_, fun x => ?_⟩
  · rw [hc, hval]
    exact h.config
  · rw [hp] at hx
    split at hx
    · next e => exact e ▸ h.wanted k (by rw [hk]; exact nofun)
    · split at hx
      · next e =>
        obtain ⟨k₀, h0, hr⟩ := h.wanted k (by rw [hk]; exact nofun)
        exact ⟨k₀, h0, hr.tail ((hmem x).1 e.1).1⟩
      · exact h.wanted x hx
  · rw [hp] at hx
    split at hx
    · next e =>
      subst e
      injection hx with hx
      subst hx
      refine ⟨fun k' hk' => ?_, fun d hd => ⟨((hmem d).1 hd).1, ?_⟩⟩
      · cases hv : s.values k' with
        | none => exact .inl ((hmem k').2 ⟨hk', hv⟩)
        | some v => exact .inr ⟨v, (hdone k' v).2 (values_some.1 hv)⟩
      · rw [hp]
        split
        · exact nofun
        · split
          · exact nofun
          · next e => exact fun hn => e ⟨hd, hn⟩
    · split at hx
      · exact nomatch hx
      · obtain ⟨ha, hb⟩ := h.wait x deps hx
        exact ⟨fun k' hk' => (ha k' hk').imp id fun ⟨v, hv⟩ => ⟨v, (hdone k' v).2 hv⟩,
          fun d hd => ⟨(hb d hd).1, hnone d (hb d hd).2⟩⟩
  · obtain ⟨v, hv⟩ := h.past x (hpast x hx) k' hk'
    exact ⟨v, (hdone k' v).2 hv⟩
  · exact h.acc x (hpast x hx)
  · rw [hp] at hx
    rw [hc]
    split at hx
    · exact nomatch hx
    · split at hx
      · exact nomatch hx
      · exact h.right x v hx
  · rw [hp]
    split
    · trivial
    · split
      · trivial
      · exact h.fits x

theorem inv_set {W : World} (hW : W.OK) {C : Config} {main : Str} {s : State} (h : Inv W C main s) {k : Pre} {v : Root}
    (hk : s.phase k = .setting v) : Inv W C main { s.go k (.done v) with config := setRoot k v s.config } := by
  generalize hs : ({ s.go k (.done v) with config := setRoot k v s.config } : State) = s'
  have hp : ∀ x, s'.phase x = if x = k then .done v else s.phase x := by
    intro x
    rw [← hs]
    rfl
  have hkn : s.values k = none := by
    unfold State.values
    rw [hk]
  have hval : s'.values = replace s.values k v := by
    funext x
    unfold State.values replace
    rw [hp]
    by_cases hx : x = k
    · rw [if_pos hx, if_pos hx]
    · rw [if_neg hx, if_neg hx]
  have hc : s'.config = sub s'.values C := by
    rw [hval, ← setRoot_sub h.final hkn, ← h.config, ← hs]
  have hdone : ∀ x w, s.phase x = .done w → s'.phase x = .done w := by
    intro x w hx
    rw [hp, if_neg]
    · exact hx
    · rintro rfl
      rw [hk] at hx
      exact nomatch hx
  have hnone : ∀ x, s'.phase x ≠ .none ↔ s.phase x ≠ .none := by
    intro x
    rw [hp]
    split
    · next e =>
      subst e
      rw [hk]
      exact ⟨nofun, nofun⟩
    · exact Iff.rfl
  have hpast : ∀ x, (s'.phase x).Past → (s.phase x).Past := by
    intro x hx
    rw [hp] at hx
    split at hx
    · next e => rw [e, hk]; trivial
    · exact hx
  refine ⟨hc, fun x hx => h.wanted x ((hnone x).1 hx), fun x hx => (hnone x).2 (h.top x hx), fun x deps hx => ?_,
    fun x hx k' hk' => ?_, fun x hx => h.acc x (hpast x hx), fun x w hx => ?_, fun x => ?_⟩
  · rw [hp] at hx
    split at hx
    · exact nomatch hx
    · obtain ⟨ha, hb⟩ := h.wait x deps hx
      exact ⟨fun k' hk' => (ha k' hk').imp id fun ⟨w, hw⟩ => ⟨w, hdone k' w hw⟩,
        fun d hd => ⟨(hb d hd).1, (hnone d).2 (hb d hd).2⟩⟩
  · obtain ⟨w, hw⟩ := h.past x (hpast x hx) k' hk'
    exact ⟨w, hdone k' w hw⟩
  · have hv : (s.phase x).value = some w ∧ (s.phase x).Past := by
      rw [hp] at hx
      split at hx
      · next e =>
        subst e
        rw [hk]
        exact ⟨hx, trivial⟩
      · refine ⟨hx, ?_⟩
        generalize s.phase x = q at hx
        cases q <;> trivial
    have hr := h.right x w hv.1
    rw [hc]
    rw [h.config] at hr
    refine hr.change hW fun d hd => ?_
    obtain ⟨u, hu⟩ := h.past x hv.2 d hd
    rw [values_some.2 hu, values_some.2 (hdone d u hu)]
  · rw [hp]
    split
    · trivial
    · exact h.fits x

theorem ask_fits {W : World} {C : Config} {s : State} {r m n c : Str} {a : Bool} (hc : s.config = sub s.values C) :
    Fits W C (.computed r m n c a) (ask W.serve W.native a ((assoc r s.config).map Info.target)).phase := by
  unfold ask
  split
  · next h =>
    simp only [Bool.and_eq_true] at h
    obtain ⟨rfl, hn⟩ := h
    split
    · next ht =>
      refine ⟨⟨r, m, n, c, rfl, ?_⟩, hn⟩
      rw [hc, assoc_sub] at ht
      simpa only [Option.map_eq_none_iff] using ht
    · split
      · next hs =>
        simp only [Bool.and_eq_true] at hs
        exact ⟨⟨r, m, n, c, rfl⟩, hs.2, hn⟩
      · exact ⟨_, _, _, _, _, rfl⟩
  · exact ⟨_, _, _, _, _, rfl⟩

theorem lookup_fits {W : World} {C : Config} {k : Pre} {x : Next} (hx : Fits W C k x.phase) (l : Lookup) :
    Fits W C k (afterLookup x l).phase := by
  unfold afterLookup
  repeat' split
  all_goals first | exact hx | trivial

theorem build_fits {W : World} {C : Config} {k : Pre} (serve absent : Bool) (b : Built) :
    Fits W C k (afterBuild serve absent b).phase := by
  unfold afterBuild
  repeat' split
  all_goals trivial

theorem resolve_fits {W : World} {C : Config} {k : Pre} (serve absent : Bool) (w : Option Root) (a : Resolved) :
    Fits W C k (resolve serve absent w a).phase := by
  unfold resolve finishStructure
  repeat' split
  all_goals trivial

theorem inv_step {W : World} (hW : W.OK) {C : Config} {main : Str} {s t : State} (h : Inv W C main s) (hst : Step W s t) :
    Inv W C main t := by
  cases hst with
  | create hk _ => exact inv_create h hk
  | @lookup r m n c a deps l hk hd _ hl =>
    obtain ⟨n1, n2, n3⟩ := next_phase (afterLookup (ask W.serve W.native a ((assoc r s.config).map Info.target)) l)
    refine h.go (by rw [hk]; exact nofun) (by rw [hk]; exact nofun) n1 n2 n3 (fun _ => h.waited hk hd) (fun v hv => ?_)
      (lookup_fits (ask_fits h.config) l) _ _
    obtain ⟨t, ht, rfl⟩ := afterLookup_set (ask_ne _ _ _ _) (next_value.1 hv)
    exact ⟨t, hl _ _ _ ht, .inl rfl⟩
  | @inquired k o hk ho =>
    have hf := h.fits k
    rw [hk] at hf
    obtain ⟨⟨r, m, n, c, rfl⟩, hs, hn⟩ := hf
    obtain ⟨n1, n2, n3⟩ := next_phase (afterInquire o)
    refine h.go (by rw [hk]; exact nofun) (by rw [hk]; exact nofun) n1 n2 n3
      (fun _ => h.past _ (by rw [hk]; trivial)) (fun v hv => ?_) ?_ _ _
    · cases o with
      | none => exact nomatch hv
      | some t =>
        injection hv with hv
        exact ⟨t, ho t rfl, .inr ⟨hv.symm, rfl⟩⟩
    · cases o
      · exact ⟨_, _, _, _, _, rfl⟩
      · trivial
  | @build k b hk _ hb =>
    have hf := h.fits k
    rw [hk] at hf
    obtain ⟨r, m, n, c, a, rfl⟩ := hf
    obtain ⟨n1, n2, n3⟩ := next_phase (afterBuild W.serve (Pre.computed r m n c a).absent b)
    refine h.go (by rw [hk]; exact nofun) (by rw [hk]; exact nofun) n1 n2 n3
      (fun _ => h.past _ (by rw [hk]; trivial)) (fun v hv => ?_) (build_fits _ _ _) _ _
    obtain ⟨t, ht, rfl⟩ := afterBuild_set (next_value.1 hv)
    exact ⟨t, hb t ht, .inl rfl⟩
  | @resolve r a deps x hk hd _ hx =>
    obtain ⟨n1, n2, n3⟩ := next_phase (resolve W.serve a ((assoc r s.config).map Info.workspace) x)
    refine h.go (by rw [hk]; exact nofun) (by rw [hk]; exact nofun) n1 n2 n3 (fun _ => h.waited hk hd) (fun v hv => ?_)
      (resolve_fits _ _ _ _) _ _
    obtain ⟨ref, t, hw, ht, rfl⟩ := resolve_set hW (fun ref t hw ht => by
      obtain ⟨i, hi, rfl⟩ := Option.map_eq_some_iff.1 hw
      exact hx i t hi ht) (next_value.1 hv)
    obtain ⟨i, hi, rfl⟩ := Option.map_eq_some_iff.1 hw
    refine ⟨_, ⟨i, t, hi, ht, rfl⟩, ?_⟩
    cases a
    · exact .inl rfl
    · exact .inr ⟨rfl, rfl⟩
  | @lock k v hk _ =>
    refine h.go (p := .setting v) (by rw [hk]; exact nofun) (by rw [hk]; exact nofun) nofun nofun nofun
      (fun _ => h.past _ (by rw [hk]; trivial)) (fun w hw => h.right _ w (by rw [hk]; exact hw)) trivial _ _
  | set hk => exact inv_set hW h hk

theorem inv_run {W : World} (hW : W.OK) {C : Config} {main : Str} {s : State} (h : Run W C main s) : Inv W C main s := by
  induction h with
  | start => exact inv_start W C main
  | step _ _ hst ih => exact inv_step hW ih hst

end Verif.Evaluate
