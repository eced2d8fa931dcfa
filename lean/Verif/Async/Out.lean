import Verif.Async.Safety

/-!
# The asynchronous map: one step of an item, by cases
-/

namespace Verif.Async

variable {K V : Type} [DecidableEq K]

/-- The steps of good items. -/
inductive Out (s : Core K V) : Item K V → Core K V → List (Item K V) → Prop where
  | create (k : K) : s.flag k = true → Out s (.create k) { s with log := .created k :: s.log } []
  | ensured (c i : Nat) (k : K) : s.keyAt c i = some k → s.flag k = true → Out s (.ensure c i) s [.ensure c (i + 1)]
  | ensureMark (c i : Nat) (k : K) : s.keyAt c i = some k → s.flag k = false →
      Out s (.ensure c i) { s with flag := fun k' => decide (k = k') || s.flag k' } [.ensurePush c i]
  | ensureFail (c i : Nat) : s.handler c = true → At s c 0 → Out s (.ensure c i) s [.failCheck c 0]
  | ensureWait (c i : Nat) : s.handler c = false → At s c 0 → Out s (.ensure c i) s [.waitCheck c 0]
  | push (c i : Nat) (k : K) : s.keyAt c i = some k → s.flag k = true →
      Out s (.ensurePush c i) s [.create k, .ensure c (i + 1)]
  | failReady (c p : Nat) (k : K) : At s c p → s.handler c = true → s.keyAt c p = some k → s.ready k = true →
      Out s (.failCheck c p) s [.waitCheck c p]
  | failCheck (c p : Nat) (k : K) : At s c p → s.handler c = true → s.keyAt c p = some k → s.ready k = false →
      Out s (.failCheck c p) s [.failLock c p]
  | failFailed (c p : Nat) (k : K) : At s c p → s.handler c = true → s.keyAt c p = some k → s.failed k = true →
      Out s (.failLock c p) s [.failTask c, .waitCheck c p]
  | failRegister (c p : Nat) (k : K) : At s c p → s.handler c = true → s.keyAt c p = some k → s.failed k = false →
      Out s (.failLock c p) { s with failing := s.failing ++ [(k, c)] } [.waitCheck c p]
  | waitReady (c p : Nat) (k : K) : At s c p → s.keyAt c p = some k → s.ready k = true →
      Out s (.waitCheck c p) s [.cont c (p + 1)]
  | waitCheck (c p : Nat) (k : K) : At s c p → s.keyAt c p = some k → s.ready k = false →
      Out s (.waitCheck c p) s [.waitLock c p]
  | waitFailed (c p : Nat) (k : K) : At s c p → s.keyAt c p = some k → s.failed k = true →
      Out s (.waitLock c p) { s with log := .dropped c :: s.log } [.record c p]
  | waitNow (c p : Nat) (k : K) : At s c p → s.keyAt c p = some k → s.failed k = false → s.ready k = true →
      Out s (.waitLock c p) s [.cont c (p + 1)]
  | waitRegister (c p : Nat) (k : K) : At s c p → s.keyAt c p = some k → s.failed k = false → s.ready k = false →
      Out s (.waitLock c p) { s with awaiting := s.awaiting ++ [(k, c, p + 1)] } [.record c p]
  | recordOwner (c p : Nat) (o k : K) : s.owner c = some o → s.keyAt c p = some k →
      Out s (.record c p) { s with requests := s.requests ++ [(o, k)] } []
  | recordNone (c p : Nat) : s.owner c = none → Out s (.record c p) s []
  | contEnd (c p : Nat) : AllReady s c → Out s (.cont c p) s [.consume c]
  | contFail (c p : Nat) : At s c p → s.handler c = true → Out s (.cont c p) s [.failCheck c p]
  | contWait (c p : Nat) : At s c p → s.handler c = false → Out s (.cont c p) s [.waitCheck c p]
  | consume (c : Nat) (vs : List V) : AllReady s c → s.values (s.keys c) = some vs →
      Out s (.consume c) { s with log := .consumed c vs :: s.log } []
  | failOwner (c : Nat) (o : K) : s.handler c = true → s.owner c = some o →
      Out s (.failTask c) { s with log := .handled c :: s.log } [.failNode o]
  | failNone (c : Nat) : s.handler c = true → s.owner c = none →
      Out s (.failTask c) { s with log := .handled c :: s.log } []
  | setFailed (k : K) (v : V) : s.failed k = true → Out s (.set k v) s []
  | set (k : K) (v : V) : s.failed k = false → Out s (.set k v) { s with
        value := fun k' => if k = k' then some v else s.value k'
        awaiting := s.awaiting.filter fun w => !decide (w.1 = k)
        failing := s.failing.filter fun w => !decide (w.1 = k) }
      ((s.awaiting.filter fun w => decide (w.1 = k)).map fun w => .cont w.2.1 w.2.2)
  | failDone (k : K) : s.ready k = true ∨ s.failed k = true → Out s (.failNode k) s []
  | fail (k : K) : s.ready k = false → s.failed k = false → Out s (.failNode k) { s with
        failed := fun k' => decide (k = k') || s.failed k'
        awaiting := s.awaiting.filter fun w => !decide (w.1 = k)
        failing := s.failing.filter fun w => !decide (w.1 = k)
        log := ((s.awaiting.filter fun w => decide (w.1 = k)).map fun w => .dropped w.2.1) ++ s.log }
      ((s.failing.filter fun w => decide (w.1 = k)).map fun w => .failTask w.2)

theorem exec_out {x : Item K V} {s : Core K V} (hx : Good s x) : Out s x (exec x s).core (exec x s).items := by
  cases x with
  | create k => exact .create k hx
  | ensure c i =>
    obtain ⟨r, h1, h2, h3, h4⟩ := hx
    have hke := keyAt_eq (p := i) h1
    cases hk : r.keys[i]? with
    | none =>
      rw [hk] at hke
      have hat : At s c 0 := by
        have hlen := List.getElem?_eq_none_iff.mp hk
        refine ⟨r, h1, ?_, ?_, fun j k hj => absurd hj (Nat.not_lt_zero j)⟩
        · cases hr : r.keys with
          | nil => exact absurd hr h2
          | cons a l => simp
        · intro k hk'
          obtain ⟨j, hj, hjk⟩ := List.getElem_of_mem hk'
          exact h4 j k (by omega) (by rw [List.getElem?_eq_getElem hj, hjk])
      simp only [exec, hke]
      rcases register_eq s c 0 with ⟨h5, h6⟩ | ⟨h5, h6⟩
      · rw [h6]; exact .ensureFail c i h5 hat
      · rw [h6]; exact .ensureWait c i h5 hat
    | some k =>
      rw [hk] at hke
      simp only [exec, hke]
      cases hf : s.flag k with
      | true => rw [if_pos rfl]; exact .ensured c i k hke hf
      | false => rw [if_neg Bool.false_ne_true]; exact .ensureMark c i k hke hf
  | ensurePush c i =>
    obtain ⟨r, h1, h3, h4⟩ := hx
    have hke : s.keyAt c i = some r.keys[i] := by rw [keyAt_eq h1, List.getElem?_eq_getElem h3]
    simp only [exec, hke]
    exact .push c i _ hke (h4 i _ (Nat.le_refl i) (List.getElem?_eq_getElem h3))
  | failCheck c p =>
    obtain ⟨k, hk⟩ := hx.1.key
    simp only [exec, hk]
    cases hr : s.ready k with
    | true => rw [if_pos rfl]; exact .failReady c p k hx.1 hx.2 hk hr
    | false => rw [if_neg Bool.false_ne_true]; exact .failCheck c p k hx.1 hx.2 hk hr
  | failLock c p =>
    obtain ⟨k, hk⟩ := hx.1.key
    simp only [exec, hk]
    cases hr : s.failed k with
    | true => rw [if_pos rfl]; exact .failFailed c p k hx.1 hx.2 hk hr
    | false => rw [if_neg Bool.false_ne_true]; exact .failRegister c p k hx.1 hx.2 hk hr
  | waitCheck c p =>
    obtain ⟨k, hk⟩ := At.key hx
    simp only [exec, hk]
    cases hr : s.ready k with
    | true => rw [if_pos rfl]; exact .waitReady c p k hx hk hr
    | false => rw [if_neg Bool.false_ne_true]; exact .waitCheck c p k hx hk hr
  | waitLock c p =>
    obtain ⟨k, hk⟩ := At.key hx
    simp only [exec, hk]
    cases hf : s.failed k with
    | true => rw [if_pos rfl]; exact .waitFailed c p k hx hk hf
    | false =>
      rw [if_neg Bool.false_ne_true]
      cases hr : s.ready k with
      | true => rw [if_pos rfl]; exact .waitNow c p k hx hk hf hr
      | false => rw [if_neg Bool.false_ne_true]; exact .waitRegister c p k hx hk hf hr
  | record c p =>
    obtain ⟨k, hk⟩ := At.key hx
    cases ho : s.owner c with
    | none => simp only [exec, ho]; exact .recordNone c p ho
    | some o => simp only [exec, ho, hk]; exact .recordOwner c p o k ho hk
  | cont c p =>
    simp only [exec]
    by_cases hp : p = (s.keys c).length
    · rw [if_pos hp]; exact .contEnd c p (Past.all hx hp)
    · rw [if_neg hp]
      have hat := Past.at hx hp
      rcases register_eq s c p with ⟨h5, h6⟩ | ⟨h5, h6⟩
      · rw [h6]; exact .contFail c p hat h5
      · rw [h6]; exact .contWait c p hat h5
  | consume c =>
    obtain ⟨r, h1, h2⟩ := id hx
    obtain ⟨vs, hvs⟩ := values_some (ks := s.keys c) (fun k hk => (h2 k (by rwa [keys_eq h1] at hk)).2)
    simp only [exec, hvs]
    exact .consume c vs hx hvs
  | failTask c =>
    cases ho : s.owner c with
    | none => simp only [exec, ho]; exact .failNone c hx ho
    | some o => simp only [exec, ho]; exact .failOwner c o hx ho
  | set k v =>
    simp only [exec]
    cases hf : s.failed k with
    | true => rw [if_pos rfl]; exact .setFailed k v hf
    | false => rw [if_neg Bool.false_ne_true]; exact .set k v hf
  | failNode k =>
    simp only [exec]
    by_cases h : s.ready k = true ∨ s.failed k = true
    · rw [if_pos h]; exact .failDone k h
    · rw [if_neg h]
      refine .fail k ?_ ?_
      · cases hr : s.ready k with
        | true => exact absurd (.inl hr) h
        | false => rfl
      · cases hr : s.failed k with
        | true => exact absurd (.inr hr) h
        | false => rfl

/-! ## Balance of the sums -/

theorem Out.tok {s s' : Core K V} {x : Item K V} {is : List (Item K V)} (h : Out s x s' is) (c : Nat) :
    tot (tokI c) is + tot (tokW c) s'.awaiting + tot (tokE c) s'.log =
      tokI c x + tot (tokW c) s.awaiting + tot (tokE c) s.log := by
  cases h with
  | set k v =>
    have := tot_filter (tokW c) (fun w => decide (w.1 = k)) s.awaiting
    simp only [tot_map]
    show tot (tokW c) _ + tot (tokW c) _ + _ = 0 + _ + _
    omega
  | fail k =>
    have := tot_filter (tokW c) (fun w => decide (w.1 = k)) s.awaiting
    simp only [tot_map, tot_append]
    show tot (fun _ => 0) _ + tot (tokW c) _ + (tot (tokW c) _ + _) = 0 + _ + _
    rw [tot_eq_zero (F := fun _ => 0) (fun _ _ => rfl)]
    omega
  | waitRegister c' p k =>
    simp only [tot_append, tot_cons, tot_nil, tokI, tokW]
    omega
  | _ => simp only [tot_cons, tot_nil, tokI, tokE]; try omega

theorem Out.cre {s s' : Core K V} {x : Item K V} {is : List (Item K V)} (h : Out s x s' is) (k : K) :
    tot (creI s k) is + tot (creE k) s'.log + (if s.flag k = true then 1 else 0) =
      creI s k x + tot (creE k) s.log + (if s'.flag k = true then 1 else 0) := by
  cases h with
  | set k' v =>
    simp only [tot_map]
    show tot (fun _ => 0) _ + _ + _ = 0 + _ + _
    rw [tot_eq_zero (F := fun _ => 0) (fun _ _ => rfl)]
  | fail k' =>
    simp only [tot_map, tot_append]
    show tot (fun _ => 0) _ + (tot (fun _ => 0) _ + _) + _ = 0 + _ + _
    rw [tot_eq_zero (F := fun _ => 0) (fun _ _ => rfl), tot_eq_zero (F := fun _ => 0) (fun _ _ => rfl)]
    omega
  | ensureMark c i k' hk hf =>
    simp only [tot_cons, tot_nil, creI, hk, Option.some.injEq]
    by_cases h : k' = k
    · subst h
      simp [hf]; omega
    · simp [h]
  | push c i k' hk hf =>
    simp only [tot_cons, tot_nil, creI, hk, Option.some.injEq]
    omega
  | _ => simp only [tot_cons, tot_nil, creI, creE]; try omega

omit [DecidableEq K] in
theorem not_handler {s : Core K V} {c c' : Nat} (h : s.handler c = true) (h' : s.handler c' = false) : c' ≠ c := by
  rintro rfl
  rw [h] at h'
  cases h'

theorem Out.reg {s s' : Core K V} {x : Item K V} {is : List (Item K V)} (h : Out s x s' is) {k : K} {c : Nat}
    (hc : s.handler c = true) (hr : s'.ready k = false) (hf : s'.failed k = false) :
    tot (regF k c) s'.failing + regI s k c x + tot (regW k c) s.awaiting =
      tot (regF k c) s.failing + tot (regI s k c) is + tot (regW k c) s'.awaiting := by
  cases h with
  | set k' v =>
    have hne : k' ≠ k := by
      rintro rfl
      simp [Core.ready] at hr
    have h1 := tot_filter (regF k c) (fun w => decide (w.1 = k')) s.failing
    have h2 := tot_filter (regW k c) (fun w => decide (w.1 = k')) s.awaiting
    have h3 : tot (regF k c) (s.failing.filter fun w => decide (w.1 = k')) = 0 := by
      refine tot_eq_zero (fun w hw => if_neg ?_)
      have : w.1 = k' := by simpa using (List.mem_filter.mp hw).2
      rw [this]; exact fun h => hne h.1
    have h4 : tot (regW k c) (s.awaiting.filter fun w => decide (w.1 = k')) = 0 := by
      refine tot_eq_zero (fun w hw => if_neg ?_)
      have : w.1 = k' := by simpa using (List.mem_filter.mp hw).2
      rw [this]; exact fun h => hne h.1
    simp only [tot_map]
    show _ + 0 + _ = _ + tot (fun _ => 0) _ + _
    rw [tot_eq_zero (F := fun _ => 0) (fun _ _ => rfl)]
    omega
  | fail k' =>
    have hne : k' ≠ k := by
      rintro rfl
      simp at hf
    have h1 := tot_filter (regF k c) (fun w => decide (w.1 = k')) s.failing
    have h2 := tot_filter (regW k c) (fun w => decide (w.1 = k')) s.awaiting
    have h3 : tot (regF k c) (s.failing.filter fun w => decide (w.1 = k')) = 0 := by
      refine tot_eq_zero (fun w hw => if_neg ?_)
      have : w.1 = k' := by simpa using (List.mem_filter.mp hw).2
      rw [this]; exact fun h => hne h.1
    have h4 : tot (regW k c) (s.awaiting.filter fun w => decide (w.1 = k')) = 0 := by
      refine tot_eq_zero (fun w hw => if_neg ?_)
      have : w.1 = k' := by simpa using (List.mem_filter.mp hw).2
      rw [this]; exact fun h => hne h.1
    simp only [tot_map]
    show _ + 0 + _ = _ + tot (fun _ => 0) _ + _
    rw [tot_eq_zero (F := fun _ => 0) (fun _ _ => rfl)]
    omega
  | failRegister c' p k' ha hh hk hf' =>
    simp only [tot_append, tot_cons, tot_nil, regI, regF, hk, Option.some.injEq]
    by_cases h1 : c' = c
    · by_cases h2 : k' = k <;> simp [h1, h2]
    · simp [h1]
  | waitRegister c' p k' ha hk hf' hr' =>
    simp only [tot_append, tot_cons, tot_nil, regI, regW, hk, Option.some.injEq]
    by_cases h1 : c' = c
    · by_cases h2 : k' = k <;> simp [h1, h2]; omega
    · simp [h1]
  | ensureWait c' i hh ha => simp [tot_cons, tot_nil, regI, not_handler hc hh]
  | contWait c' p ha hh => simp [tot_cons, tot_nil, regI, not_handler hc hh]
  | failReady c' p k' ha hh hk hr' =>
    have hne : k' ≠ k := by
      rintro rfl
      rw [hr'] at hr; cases hr
    simp [tot_cons, tot_nil, regI, hk, hne]
  | failFailed c' p k' ha hh hk hf' =>
    have hne : k' ≠ k := by
      rintro rfl
      rw [hf'] at hf; cases hf
    simp [tot_cons, tot_nil, regI, hk, hne]
  | waitReady c' p k' ha hk hr' =>
    have hne : k' ≠ k := by
      rintro rfl
      rw [hr'] at hr; cases hr
    simp [tot_cons, tot_nil, regI, hk, hne]
  | waitFailed c' p k' ha hk hf' =>
    have hne : k' ≠ k := by
      rintro rfl
      rw [show s.failed k' = false from hf] at hf'; cases hf'
    simp [tot_cons, tot_nil, regI, hk, hne]
  | waitNow c' p k' ha hk hf' hr' =>
    have hne : k' ≠ k := by
      rintro rfl
      rw [hr'] at hr; cases hr
    simp [tot_cons, tot_nil, regI, hk, hne]
  | _ => simp only [tot_cons, tot_nil, regI]; try omega

/-- All steps but the failing of a node. -/
theorem Out.han {s s' : Core K V} {x : Item K V} {is : List (Item K V)} (h : Out s x s' is) {c : Nat}
    (hc : s.handler c = true) (hex : ∀ k, s.ready k = true → s.failed k = false) (he : s'.failed = s.failed) :
    tot (hanI c) is + tot (hanE c) s'.log + losI s c x + tot (losE c) s.log =
      hanI c x + tot (hanE c) s.log + tot (losI s c) is + tot (losE c) s'.log := by
  cases h with
  | set k' v =>
    simp only [tot_map]
    show tot (fun _ => 0) _ + _ + 0 + _ = 0 + _ + tot (fun _ => 0) _ + _
    rw [tot_eq_zero (F := fun _ => 0) (fun _ _ => rfl)]
  | fail k' hr hf =>
    have := congrFun he k'
    simp [hf] at this
  | ensureWait c' i hh ha => simp [tot_cons, tot_nil, hanI, losI, not_handler hc hh]
  | contWait c' p ha hh => simp [tot_cons, tot_nil, hanI, losI, not_handler hc hh]
  | failReady c' p k' ha hh hk hr' => simp [tot_cons, tot_nil, hanI, losI, hk, hex k' hr']
  | failFailed c' p k' ha hh hk hf' =>
    simp only [tot_cons, tot_nil, hanI, losI, hk, Option.any_some, hf']
    by_cases h : c' = c <;> simp [h]; omega
  | failRegister c' p k' ha hh hk hf' => simp [tot_cons, tot_nil, hanI, losI, hk, hf']
  | waitReady c' p k' ha hk hr' => simp [tot_cons, tot_nil, hanI, losI, hk, hex k' hr']
  | waitNow c' p k' ha hk hf' hr' => simp [tot_cons, tot_nil, hanI, losI, hk, hf']
  | waitFailed c' p k' ha hk hf' =>
    simp only [tot_cons, tot_nil, hanI, losI, losE, hanE, hk, Option.any_some, hf']
    by_cases h : c' = c <;> simp [h]; omega
  | waitRegister c' p k' ha hk hf' hr' => simp [tot_cons, tot_nil, hanI, losI, hk, hf']
  | _ => simp only [tot_cons, tot_nil, hanI, hanE, losI, losE]; try omega

end Verif.Async
