import Verif.Repo.EvaluateLemmas

/-!
# C108: evaluation of the roots that have to be computed before the build
-/

namespace Verif.Evaluate

open Verif Relation

/-- **C108.** When the evaluation of a root has begun, all roots that its repository depends on are set: what is read for
it does not change any more. -/
theorem C108_order {W : World} (hW : W.OK) {C : Config} {main : Str} {s : State} (h : Run W C main s) {k : Pre}
    (hk : (s.phase k).Past) : ∀ k', ¬ Needs s.config k.repository k' := by
  intro k' hn
  have hi := inv_run hW h
  rw [hi.config, needs_sub hi.final] at hn
  obtain ⟨v, hv⟩ := hi.past k hk k' hn.1
  rw [values_some.2 hv] at hn
  exact nomatch hn.2

theorem sub_becomes {W : World} {C' : Config} {σ : Pre → Option Root} {r : Root}
    (h : ∀ k, r = .pre k → ∃ v, σ k = some v ∧ Right W C' k v) : Becomes W C' r (r.sub σ) := by
  cases r with
  | pre k =>
    obtain ⟨v, hv, hr⟩ := h k rfl
    simp only [Root.sub, hv, Option.getD_some]
    exact hr
  | _ => rfl

/-- **C108.** If the evaluation succeeds, then in all repositories the main one depends on, exactly the roots to be computed
are replaced, each by one with the tree it stands for in the resulting configuration. -/
theorem C108_success_partial {W : World} (hW : W.OK) {C : Config} {main : Str} {s : State} (h : Run W C main s)
    (hs : s.Success C main) {m : Str} (hm : Reach C main m) :
    match assoc m C with
    | none => assoc m s.config = none
    | some i => ∃ i', assoc m s.config = some i' ∧ i'.names = i.names ∧
        List.Forall₂ (Becomes W s.config) i.roots i'.roots := by
  have hi := inv_run hW h
  cases hc : assoc m C with
  | none =>
    show assoc m s.config = none
    rw [hi.config, assoc_sub, hc]
    rfl
  | some i =>
    refine ⟨i.sub s.values, by rw [hi.config, assoc_sub, hc]; rfl, rfl, ?_⟩
    rw [roots_sub, List.forall₂_map_right_iff, List.forall₂_same]
    intro r hr
    refine sub_becomes fun k e => ?_
    subst e
    obtain ⟨v, hv⟩ := hs.1 k (mem_rootDeps.2 ⟨m, i, hm, hc, hr⟩)
    exact ⟨v, values_some.2 hv, hi.right k v (by rw [hv]; rfl)⟩

theorem Right.forget {W : World} {C : Config} {k : Pre} {v : Root} (h : Right W C k v) :
    ∃ t, Stands W C k t ∧ v.forget = .present t := by
  obtain ⟨t, ht, rfl | ⟨rfl, _⟩⟩ := h <;> exact ⟨t, ht, rfl⟩

theorem stands_unique {W : World} (hf : ∀ k C t t', W.tree k C t → W.tree k C t' → t = t') {C : Config} {k : Pre}
    {t t' : Str} (h : Stands W C k t) (h' : Stands W C k t') : t = t' := by
  cases k with
  | computed r m n c a => exact hf _ _ _ _ h h'
  | tree r a =>
    obtain ⟨i, w, hi, hw, rfl⟩ := h
    obtain ⟨i', w', hi', hw', rfl⟩ := h'
    rw [hi] at hi'
    injection hi' with hi'
    subst hi'
    rw [hw] at hw'
    injection hw' with hw'
    rw [hw']

/-- **C108.** If the tree of each target is determined by the content of the repositories, then the result does not depend
on the order in which roots are evaluated, on what is in the cache, or on what the serve endpoint does. -/
theorem C108_unique_partial {W : World} (hW : W.OK) (hf : ∀ k C t t', W.tree k C t → W.tree k C t' → t = t') {C : Config}
    {main : Str} {s s' : State} (h : Run W C main s) (h' : Run W C main s') (hs : s.Success C main)
    (hs' : s'.Success C main) {m : Str} (hm : Reach C main m) :
    (assoc m s.config).map Info.forget = (assoc m s'.config).map Info.forget := by
  have hi := inv_run hW h
  have hi' := inv_run hW h'
  have key : ∀ k v v', s.phase k = .done v → s'.phase k = .done v' → v.forget = v'.forget := by
    intro k v v' hv
    have ha := hi.acc k (by rw [hv]; trivial)
    induction ha generalizing v v' with
    | intro k _ ih =>
      intro hv'
      obtain ⟨t, ht, e⟩ := (hi.right k v (by rw [hv]; rfl)).forget
      obtain ⟨t', ht', e'⟩ := (hi'.right k v' (by rw [hv']; rfl)).forget
      rw [e, e']
      rw [hi.config] at ht
      rw [hi'.config] at ht'
      refine congrArg _ (stands_unique hf (ht.change hW fun d hd => ?_) ht')
      obtain ⟨w, hw⟩ := hi.past k (by rw [hv]; trivial) d hd
      obtain ⟨w', hw'⟩ := hi'.past k (by rw [hv']; trivial) d hd
      rw [values_some.2 hw, values_some.2 hw']
      exact congrArg some (ih d hd w w' hw hw')
  rw [hi.config, hi'.config]
  refine same_sub (n := main) (fun d hd => ?_) m (reach_sub.2 hm)
  obtain ⟨w, hw⟩ := hs.1 d (mem_rootDeps.2 hd)
  obtain ⟨w', hw'⟩ := hs'.1 d (mem_rootDeps.2 hd)
  rw [values_some.2 hw, values_some.2 hw']
  exact congrArg some (key d w w' hw hw')

/-- **C108.** If a root to be computed depends on itself, evaluation does not succeed. -/
theorem C108_cycle {W : World} (hW : W.OK) {C : Config} {main : Str} {s : State} (h : Run W C main s)
    (hs : s.Success C main) {k : Pre} (hk : Wanted C main k) : ¬ TransGen (Dep C) k k := by
  have hi := inv_run hW h
  obtain ⟨k₀, h0, hr⟩ := hk
  have hd : ∃ v, s.phase k = .done v := by
    induction hr with
    | refl => exact hs.1 _ (mem_rootDeps.2 h0)
    | tail _ hd ih =>
      obtain ⟨v, hv⟩ := ih
      exact hi.past _ (by rw [hv]; trivial) _ hd
  obtain ⟨v, hv⟩ := hd
  have ha := (hi.acc k (by rw [hv]; trivial)).transGen
  intro hc
  have hc' : TransGen (fun a b => Dep C b a) k k := by
    rw [← transGen_swap] at hc
    exact hc
  clear hr hv
  induction ha with
  | intro k _ ih => exact ih k hc' hc hc'

/-- The roots to be computed. -/
def allPres (C : Config) : List Pre := C.flatMap fun p => p.2.pres

theorem assoc_mem {m : Str} {i : Info} : ∀ {C : Config}, assoc m C = some i → (m, i) ∈ C
  | [], h => nomatch h
  | p :: C, h => by
    simp only [assoc] at h
    split at h
    · next e =>
      injection h with h
      rw [e, ← h]
      exact List.mem_cons_self
    · exact List.mem_cons_of_mem _ (assoc_mem h)

theorem Needs.mem {C : Config} {n : Str} {k : Pre} (h : Needs C n k) : k ∈ allPres C := by
  obtain ⟨m, i, _, hi, hk⟩ := h
  exact List.mem_flatMap.2 ⟨_, assoc_mem hi, mem_pres.2 hk⟩

theorem Wanted.mem {C : Config} {main : Str} {k : Pre} (h : Wanted C main k) : k ∈ allPres C := by
  obtain ⟨k₀, h0, hr⟩ := h
  cases hr with
  | refl => exact h0.mem
  | tail _ hd => exact Needs.mem hd

/-- Without cycles, what depends on each other can be evaluated one after the other. -/
theorem wanted_acc {C : Config} {main : Str} (hc : ∀ k, Wanted C main k → ¬ TransGen (Dep C) k k) {k : Pre}
    (hk : Wanted C main k) : Acc (fun a b => Dep C b a) k := by
  let K := { k : Pre // Wanted C main k }
  have : Finite K := Set.Finite.to_subtype ((List.finite_toSet (allPres C)).subset fun k (hk : Wanted C main k) => hk.mem)
  let R : K → K → Prop := fun a b => TransGen (Dep C) b.1 a.1
  have : IsTrans K R := ⟨fun a b c hab hbc => hbc.trans hab⟩
  have : Std.Irrefl R := ⟨fun a => hc a.1 a.2⟩
  have hw : WellFounded R := Finite.wellFounded_of_trans_of_irrefl R
  have : ∀ x : K, Acc (fun a b => Dep C b a) x.1 := by
    intro x
    induction hw.apply x with
    | intro x _ ih =>
      refine Acc.intro _ fun y hy => ?_
      obtain ⟨k₀, h0, hr⟩ := x.2
      exact ih ⟨y, k₀, h0, hr.tail hy⟩ (TransGen.single hy)
  exact this ⟨k, hk⟩

/-- **C108.** If nothing more can be done, and nothing failed, then the evaluation has succeeded, or some root depends on
itself. -/
theorem C108_progress {W : World} (hW : W.OK) {C : Config} {main : Str} {s : State} (h : Run W C main s)
    (hn : ∀ k, s.phase k ≠ .failed ∧ s.phase k ≠ .crashed) (hstuck : ∀ t, ¬ Step W s t) :
    s.Success C main ∨ ∃ k, Wanted C main k ∧ TransGen (Dep C) k k := by
  refine Classical.byContradiction fun hneg => ?_
  rw [not_or] at hneg
  obtain ⟨hns, hnc⟩ := hneg
  have hi := inv_run hW h
  have hread : s.Readable := fun k v hk => hstuck _ (.set hk)
  have key : ∀ k, Wanted C main k → s.phase k ≠ .none → ∃ v, s.phase k = .done v := by
    intro k hk
    induction wanted_acc (fun k hk hc => hnc ⟨k, hk, hc⟩) hk with
    | intro k _ ih =>
      intro hp
      cases hq : s.phase k with
      | none => exact absurd hq hp
      | requested => exact absurd (Step.create hq hread) (hstuck _)
      | waiting deps =>
        have hd : ∀ d ∈ deps, ∃ v, s.phase d = .done v := by
          intro d hd
          obtain ⟨h1, h2⟩ := (hi.wait k deps hq).2 d hd
          exact ih d h1 (hi.wanted d h2) h2
        cases k with
        | computed r m n c a => exact absurd (Step.lookup .error hq hd hread nofun) (hstuck _)
        | tree r a =>
          exact absurd (Step.resolve ⟨none, none, none, false, none, none, false, false⟩ hq hd hread
            fun _ _ _ _ => ⟨nofun, nofun, nofun, nofun⟩) (hstuck _)
      | inquiring => exact absurd (Step.inquired none hq nofun) (hstuck _)
      | building => exact absurd (Step.build ⟨none, false, none, false⟩ hq hread nofun) (hstuck _)
      | ready v => exact absurd (Step.lock hq hread) (hstuck _)
      | setting v => exact absurd hq (hread k v)
      | done v => exact ⟨v, rfl⟩
      | failed => exact absurd hq (hn k).1
      | crashed => exact absurd hq (hn k).2
  exact hns ⟨fun k hk => key k ⟨k, mem_rootDeps.1 hk, .refl⟩ (hi.top k (mem_rootDeps.1 hk)), fun k => (hn k).1⟩

/-- How far the evaluation of a key is. -/
def Phase.rank : Phase → Nat
  | .none => 0
  | .requested => 1
  | .waiting _ => 2
  | .inquiring => 3
  | .building => 4
  | .ready _ => 5
  | .setting _ => 6
  | .done _ | .failed | .crashed => 7

theorem rank_le (p : Phase) : p.rank ≤ 7 := by cases p <;> exact Nat.le_of_ble_eq_true rfl

theorem next_rank (n : Next) : 3 ≤ n.phase.rank := by cases n <;> exact Nat.le_of_ble_eq_true rfl

/-- How far the evaluation is. -/
def total (C : Config) (s : State) : Nat := ((allPres C).map fun k => (s.phase k).rank).sum

theorem sum_le {f : Pre → Nat} {b : Nat} (h : ∀ k, f k ≤ b) : ∀ l : List Pre, (l.map f).sum ≤ b * l.length
  | [] => Nat.zero_le _
  | k :: l => by
    have := sum_le h l
    have := h k
    simp only [List.map_cons, List.sum_cons, List.length_cons, Nat.mul_add, Nat.mul_one]
    omega

theorem sum_mono {f g : Pre → Nat} (h : ∀ k, f k ≤ g k) : ∀ l : List Pre, (l.map f).sum ≤ (l.map g).sum
  | [] => Nat.le_refl _
  | k :: l => by
    have := sum_mono h l
    have := h k
    simp only [List.map_cons, List.sum_cons]
    omega

theorem sum_lt {f g : Pre → Nat} (h : ∀ k, f k ≤ g k) {x : Pre} (hx : f x < g x) : ∀ {l : List Pre}, x ∈ l →
    (l.map f).sum < (l.map g).sum
  | [], hm => nomatch hm
  | k :: l, hm => by
    simp only [List.map_cons, List.sum_cons]
    have := h k
    rcases List.mem_cons.1 hm with rfl | hm
    · have := sum_mono h l
      omega
    · have := sum_lt h hx hm
      omega

theorem step_rank {W : World} {s t : State} (h : Step W s t) :
    (∀ k, (s.phase k).rank ≤ (t.phase k).rank) ∧
    ∃ k, s.phase k ≠ .none ∧ (s.phase k).rank < (t.phase k).rank := by
  have hgo : ∀ (k : Pre) (p : Phase), (s.phase k).rank < p.rank → s.phase k ≠ .none →
      (∀ x, (s.phase x).rank ≤ ((s.go k p).phase x).rank) ∧
      ∃ x, s.phase x ≠ .none ∧ (s.phase x).rank < ((s.go k p).phase x).rank := by
    intro k p hp hn
    refine ⟨fun x => ?_, k, hn, ?_⟩
    · unfold State.go
      simp only
      split
      · next e => rw [e]; exact Nat.le_of_lt hp
      · exact Nat.le_refl _
    · unfold State.go
      simp only [if_true]
      exact hp
  have hnext : ∀ (k : Pre) (n : Next), (s.phase k).rank ≤ 2 → (s.phase k).rank < n.phase.rank :=
    fun k n h => Nat.lt_of_le_of_lt h (next_rank n)
  cases h with
  | @create k hk _ =>
    obtain ⟨h1, x, hx, h2⟩ := hgo k (.waiting (rootDeps s.config k.repository)) (by rw [hk]; exact Nat.le_of_ble_eq_true rfl) (by rw [hk]; exact nofun)
    have hreq : ∀ (s' : State) (l : List Pre) (x : Pre), (s'.phase x).rank ≤ ((s'.request l).phase x).rank := by
      intro s' l x
      unfold State.request
      simp only
      split
      · next e => rw [e.2]; exact Nat.le_of_ble_eq_true rfl
      · exact Nat.le_refl _
    exact ⟨fun y => Nat.le_trans (h1 y) (hreq _ _ y), x, hx, Nat.lt_of_lt_of_le h2 (hreq _ _ x)⟩
  | lookup l hk => exact hgo _ _ (hnext _ _ (by rw [hk]; exact Nat.le_of_ble_eq_true rfl)) (by rw [hk]; exact nofun)
  | @inquired k o hk =>
    refine hgo _ _ ?_ (by rw [hk]; exact nofun)
    rw [hk]
    cases o <;> exact Nat.le_of_ble_eq_true rfl
  | @build k b hk =>
    refine hgo _ _ ?_ (by rw [hk]; exact nofun)
    rw [hk]
    unfold afterBuild
    repeat' split
    all_goals exact Nat.le_of_ble_eq_true rfl
  | resolve x hk => exact hgo _ _ (hnext _ _ (by rw [hk]; exact Nat.le_of_ble_eq_true rfl)) (by rw [hk]; exact nofun)
  | lock hk => exact hgo _ _ (by rw [hk]; exact Nat.le_of_ble_eq_true rfl) (by rw [hk]; exact nofun)
  | set hk => exact hgo _ _ (by rw [hk]; exact Nat.le_of_ble_eq_true rfl) (by rw [hk]; exact nofun)

/-- **C108.** Evaluation ends, whatever the order of the steps. -/
theorem C108_ends {W : World} (hW : W.OK) (C : Config) (main : Str) :
    WellFounded fun t s => Run W C main s ∧ Step W s t := by
  refine Subrelation.wf (r := InvImage (· < ·) fun s => 7 * (allPres C).length - total C s) ?_ (InvImage.wf _ Nat.lt_wfRel.wf)
  rintro t s ⟨hr, hst⟩
  obtain ⟨h1, k, hk, h2⟩ := step_rank hst
  have hm := ((inv_run hW hr).wanted k hk).mem
  have hlt : total C s < total C t := sum_lt h1 h2 hm
  have hle : total C t ≤ 7 * (allPres C).length := sum_le (fun k => rank_le _) _
  show _ - _ < _ - _
  omega

/-- What has been found out about a tree that is used for an absent root. -/
structure Served (s : State) : Prop where
  known : ∀ k v t, k.absent = true → (s.phase k).value = some v → v.treeHash = some t → t ∈ s.served ∨ k ∈ s.cached
  trees : ∀ r v t, (s.phase (.tree r true)).value = some v → v.treeHash = some t → t ∈ s.served

theorem confirm_sub (a : Bool) (n : Next) (l : List Str) : ∀ x ∈ l, x ∈ confirm a n l := by
  intro x hx
  unfold confirm
  split
  · exact List.mem_cons_of_mem _ hx
  · exact List.mem_cons_of_mem _ hx
  · exact hx

theorem confirm_mem {n : Next} {v : Root} {t : Str} (l : List Str) (hv : n.phase.value = some v)
    (ht : v.treeHash = some t) : t ∈ confirm true n l := by
  rw [next_value] at hv
  subst hv
  cases v with
  | present u =>
    injection ht with ht
    subst ht
    exact List.mem_cons_self
  | absent u =>
    injection ht with ht
    subst ht
    exact List.mem_cons_self
  | file p => exact nomatch ht
  | pre k => exact nomatch ht

theorem Served.go {s : State} (h : Served s) {k : Pre} {p : Phase} {served : List Str} {cached : List Pre} {config : Config}
    (h1 : ∀ x ∈ s.served, x ∈ served) (h2 : ∀ x ∈ s.cached, x ∈ cached)
    (h3 : ∀ v t, k.absent = true → p.value = some v → v.treeHash = some t → t ∈ served ∨ k ∈ cached)
    (h4 : ∀ r v t, k = .tree r true → p.value = some v → v.treeHash = some t → t ∈ served) :
    Served ⟨config, (s.go k p).phase, served, cached⟩ := by
  constructor
  · intro x v t ha hv ht
    simp only [State.go] at hv
    split at hv
    · next e => exact e ▸ h3 v t (e ▸ ha) hv ht
    · exact (h.known x v t ha hv ht).imp (h1 t) (h2 x)
  · intro r v t hv ht
    simp only [State.go] at hv
    split at hv
    · next e => exact h4 r v t e.symm hv ht
    · exact h1 t (h.trees r v t hv ht)

theorem served_step {W : World} {C : Config} {s t : State} (hf : ∀ k, Fits W C k (s.phase k)) (h : Served s)
    (hst : Step W s t) : Served t := by
  cases hst with
  | @create k hk _ =>
    have hv : ∀ (s' : State) (l : List Pre) (x : Pre) v, ((s'.request l).phase x).value = some v →
        (s'.phase x).value = some v := by
      intro s' l x v hx
      unfold State.request at hx
      simp only at hx
      split at hx
      · exact nomatch hx
      · exact hx
    have hg : Served (s.go k (.waiting (rootDeps s.config k.repository))) :=
      h.go (config := s.config) (served := s.served) (cached := s.cached) (fun _ h => h) (fun _ h => h) (fun _ _ _ h => nomatch h)
        (fun _ _ _ _ h => nomatch h)
    exact ⟨fun x v t ha hx ht => hg.known x v t ha (hv _ _ x v hx) ht, fun r v t hx ht => hg.trees r v t (hv _ _ _ v hx) ht⟩
  | @lookup r m n c a deps l hk _ _ _ =>
    refine h.go (config := s.config) (fun _ h => h) (fun x hx => ?_) (fun v t _ hv _ => .inr ?_) (fun _ _ _ e => nomatch e)
    · unfold report
      split
      · exact List.mem_cons_of_mem _ hx
      · exact hx
    · obtain ⟨t, rfl, rfl⟩ := afterLookup_set (ask_ne _ _ _ _) (next_value.1 hv)
      exact List.mem_cons_self
  | @inquired k o hk _ =>
    refine h.go (config := s.config) (confirm_sub _ _ _) (fun _ h => h)
      (fun v t _ hv ht => .inl (confirm_mem _ hv ht)) (fun r v t e hv ht => confirm_mem _ hv ht)
  | @build k b hk _ _ =>
    refine h.go (config := s.config) (confirm_sub _ _ _) (fun _ h => h)
      (fun v t ha hv ht => .inl (by rw [ha] at hv ⊢; exact confirm_mem _ hv ht)) (fun r v t e => ?_)
    have := hf k
    rw [hk] at this
    obtain ⟨_, _, _, _, _, e'⟩ := this
    rw [e] at e'
    exact nomatch e'
  | @resolve r a deps x hk _ _ _ =>
    refine h.go (config := s.config) (confirm_sub _ _ _) (fun _ h => h) (fun v t ha hv ht => .inl ?_) (fun r' v t e hv ht => ?_)
    · have ha : a = true := ha
      subst ha
      exact confirm_mem _ hv ht
    · injection e with _ e
      subst e
      exact confirm_mem _ hv ht
  | @lock k v hk _ =>
    refine h.go (config := s.config) (fun _ h => h) (fun _ h => h) (fun w t ha hv ht => h.known k w t ha ?_ ht)
      (fun r w t e hv ht => ?_)
    · rw [hk]; exact hv
    · subst e
      exact h.trees r w t (by rw [hk]; exact hv) ht
  | @set k v hk =>
    refine h.go (fun _ h => h) (fun _ h => h) (fun w t ha hv ht => h.known k w t ha ?_ ht)
      (fun r w t e hv ht => ?_)
    · rw [hk]; exact hv
    · subst e
      exact h.trees r w t (by rw [hk]; exact hv) ht

theorem served_run {W : World} (hW : W.OK) {C : Config} {main : Str} {s : State} (h : Run W C main s) : Served s := by
  induction h with
  | start =>
    have : ∀ k v, ((start C main).phase k).value ≠ some v := by
      intro k v hv
      unfold start State.request at hv
      simp only at hv
      split at hv <;> exact nomatch hv
    exact ⟨fun k v t _ hv => absurd hv (this _ _), fun r v t hv => absurd hv (this _ _)⟩
  | step hr _ hst ih => exact served_step (inv_run hW hr).fits ih hst

/-- **C108.** If an absent root is set, then the serve endpoint was found to have the tree, unless the root was taken from
the cache. -/
theorem C108_served_partial {W : World} (hW : W.OK) {C : Config} {main : Str} {s : State} (h : Run W C main s) {k : Pre}
    {v : Root} {t : Str} (ha : k.absent = true) (hk : s.phase k = .done v) (ht : v.treeHash = some t) :
    t ∈ s.served ∨ (k ∈ s.cached ∧ ∃ r m n c a, k = .computed r m n c a) := by
  have hs := served_run hW h
  cases k with
  | computed r m n c a => exact (hs.known _ v t ha (by rw [hk]; rfl) ht).imp id fun h => ⟨h, _, _, _, _, _, rfl⟩
  | tree r a =>
    cases a with
    | false => exact nomatch ha
    | true => exact .inl (hs.trees r v t (by rw [hk]; rfl) ht)

/-- **C108.** The configuration can only be changed while it is read, if an absent root is asked from a serve endpoint; a
null pointer is only dereferenced for an absent root of an unknown repository. Both need native hashing. -/
theorem C108_defined_partial {W : World} (hW : W.OK) {C : Config} {main : Str} {s : State} (h : Run W C main s) :
    (s.Racy → W.serve = true ∧ W.native = true ∧ ∃ r m n c, Wanted C main (.computed r m n c true)) ∧
    ∀ k, s.phase k = .crashed → W.native = true ∧ ∃ r m n c, k = .computed r m n c true ∧ Wanted C main k ∧
      assoc r C = none := by
  have hi := inv_run hW h
  constructor
  · rintro ⟨k, _, _, hk, _⟩
    have hf := hi.fits k
    have hw := hi.wanted k (by rw [hk]; exact nofun)
    rw [hk] at hf
    obtain ⟨⟨r, m, n, c, rfl⟩, h1, h2⟩ := hf
    exact ⟨h1, h2, r, m, n, c, hw⟩
  · intro k hk
    have hf := hi.fits k
    have hw := hi.wanted k (by rw [hk]; exact nofun)
    rw [hk] at hf
    obtain ⟨⟨r, m, n, c, rfl, hr⟩, h2⟩ := hf
    exact ⟨h2, r, m, n, c, rfl, hw, hr⟩

/-- **C108 (after a build).**  The root of a target that was built is set only if its tree is in the local git repository, and for an
absent root only if the serve endpoint has the tree, or has got it. -/
theorem C108_confirmed {serve absent : Bool} {b : Built} {v : Root} (h : afterBuild serve absent b = .set v) :
    ∃ t, b.tree = some t ∧ v = .present t ∧ b.opened = true ∧
      (absent = true → serve = true ∧ (b.known = some true ∨ b.known = some false ∧ b.uploaded = true)) := by
  unfold afterBuild at h
  cases ht : b.tree with
  | none => rw [ht] at h; cases h
  | some t =>
    rw [ht] at h
    dsimp only at h
    cases ho : b.opened with
    | false => rw [ho] at h; cases h
    | true =>
      rw [ho, Bool.not_true, if_neg (by decide)] at h
      cases absent with
      | false =>
        injection h with h
        exact ⟨t, rfl, h.symm, rfl, fun h => (nomatch h)⟩
      | true =>
        cases serve with
        | false => cases h
        | true =>
          cases hk : b.known with
          | none => rw [hk] at h; cases h
          | some y =>
            rw [hk] at h
            cases y with
            | true =>
              injection h with h
              exact ⟨t, rfl, h.symm, rfl, fun _ => ⟨rfl, Or.inl rfl⟩⟩
            | false =>
              cases hu : b.uploaded with
              | false =>
                simp [hu] at h
              | true =>
                simp only [hu] at h
                injection h with h
                exact ⟨t, rfl, h.symm, rfl, fun _ => ⟨rfl, Or.inr ⟨rfl, rfl⟩⟩⟩

-- An absent root that had to be uploaded.
example : ∃ b : Built, afterBuild true true b = .set (.present "t".toList) ∧ b.known = some false :=
  ⟨⟨some "t".toList, true, some false, true⟩, rfl, rfl⟩

end Verif.Evaluate
