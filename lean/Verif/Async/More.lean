import Verif.Async.Invariant

/-!
# The asynchronous map: where values, failures and requests come from
-/

namespace Verif.Async

variable {K V : Type} [DecidableEq K]

/-- Whether an item is a setter of `k` at work. -/
def setI (k : K) : Item K V → Nat
  | .set k' _ => if k' = k then 1 else 0
  | _ => 0

def setE (k : K) : Event K V → Nat
  | .setterCalled k' _ => if k' = k then 1 else 0
  | _ => 0

/-- There is a reason for `k` to fail. -/
def Reason (s : Core K V) (k : K) : Prop :=
  Event.fatalCalled k ∈ s.log ∨ ∃ c, s.owner c = some k ∧ Event.handled c ∈ s.log

/-- The values are those set for the keys. -/
def Read (s : Core K V) (ks : List K) (vs : List V) : Prop := List.Forall₂ (fun k v => Event.setterCalled k v ∈ s.log) ks vs

structure Inv2 (s : State K V) : Prop where
  own : ∀ c o, s.core.owner c = some o → s.core.handler c = true ∧ Event.created o ∈ s.core.log
  asked : ∀ k c q o, (k, c, q) ∈ s.core.awaiting → s.core.owner c = some o →
    (o, k) ∈ s.core.requests ∨ ∃ p, Item.record c p ∈ s.pool ∧ s.core.keyAt c p = some k
  recd : ∀ c p k, Item.record c p ∈ s.pool → s.core.keyAt c p = some k →
    s.core.ready k = true ∨ s.core.failed k = true ∨ ∃ q, (k, c, q) ∈ s.core.awaiting
  real : ∀ o k, (o, k) ∈ s.core.requests →
    s.core.ready k = true ∨ s.core.failed k = true ∨ ∃ c q, s.core.owner c = some o ∧ (k, c, q) ∈ s.core.awaiting
  setLog : ∀ k v, Item.set k v ∈ s.pool → Event.setterCalled k v ∈ s.core.log
  valLog : ∀ k v, s.core.value k = some v → Event.setterCalled k v ∈ s.core.log
  count : ∀ k, tot (setI k) s.pool + (s.core.ready k).toNat ≤ tot (setE k) s.core.log
  read : ∀ c vs, Event.consumed c vs ∈ s.core.log → Read s.core (s.core.keys c) vs
  failLog : ∀ k, Item.failNode k ∈ s.pool → Reason s.core k
  failedLog : ∀ k, s.core.failed k = true → Reason s.core k

omit [DecidableEq K] in
theorem Le.read {s s' : Core K V} (h : Le s s') {ks : List K} {vs : List V} (hr : Read s ks vs) : Read s' ks vs :=
  hr.imp fun _ _ h' => h.log _ h'

omit [DecidableEq K] in
theorem owner_some {s : Core K V} {c : Nat} {o : K} (h : s.owner c = some o) :
    ∃ r, s.calls[c]? = some r ∧ r.owner = some o := by
  unfold Core.owner at h
  cases hc : s.calls[c]? with
  | none => rw [hc] at h; cases h
  | some r => rw [hc] at h; exact ⟨r, rfl, h⟩

omit [DecidableEq K] in
theorem Le.owner {s s' : Core K V} (h : Le s s') {c : Nat} {o : K} (ho : s.owner c = some o) : s'.owner c = some o := by
  obtain ⟨r, h1, h2⟩ := owner_some ho
  unfold Core.owner
  rw [h.calls c r h1]
  exact h2

omit [DecidableEq K] in
theorem Le.reason {s s' : Core K V} (h : Le s s') {k : K} (hr : Reason s k) : Reason s' k := by
  rcases hr with hr | ⟨c, h1, h2⟩
  · exact .inl (h.log _ hr)
  · exact .inr ⟨c, h.owner h1, h.log _ h2⟩

theorem exec_owner (x : Item K V) (s : Core K V) : (exec x s).core.owner = s.owner := by
  funext c
  unfold Core.owner
  rw [exec_calls]

theorem exec_keys (x : Item K V) (s : Core K V) : (exec x s).core.keys = s.keys := by
  funext c
  unfold Core.keys
  rw [exec_calls]

omit [DecidableEq K] in
theorem values_read {s : Core K V} (hv : ∀ k v, s.value k = some v → Event.setterCalled k v ∈ s.log) :
    ∀ (ks : List K) (vs : List V), s.values ks = some vs → Read s ks vs := by
  intro ks
  induction ks with
  | nil => intro vs h; cases h; exact .nil
  | cons k ks ih =>
    intro vs h
    unfold Core.values at h
    cases h1 : s.value k with
    | none => rw [h1] at h; cases h
    | some v =>
      cases h2 : s.values ks with
      | none => rw [h1, h2] at h; cases h
      | some vs' =>
        rw [h1, h2] at h
        cases h
        exact .cons (hv k v h1) (ih vs' h2)

/-! ## Single steps -/

theorem Out.requests {s s' : Core K V} {x : Item K V} {is : List (Item K V)} (h : Out s x s' is) :
    s'.requests = s.requests ∨ ∃ c p o k, x = .record c p ∧ s.owner c = some o ∧ s.keyAt c p = some k ∧
      s'.requests = s.requests ++ [(o, k)] := by
  cases h with
  | recordOwner c p o k ho hk => exact .inr ⟨c, p, o, k, rfl, ho, hk, rfl⟩
  | _ => exact .inl rfl

/-- Waiting goes on until the key is ready or failed. -/
theorem Out.waits {s s' : Core K V} {x : Item K V} {is : List (Item K V)} (h : Out s x s' is) {k : K} {c q : Nat}
    (hw : (k, c, q) ∈ s.awaiting) : s'.ready k = true ∨ s'.failed k = true ∨ (k, c, q) ∈ s'.awaiting := by
  cases h with
  | set k' v hf =>
    by_cases he : k = k'
    · subst he; left; simp [Core.ready]
    · right; right; exact List.mem_filter.mpr ⟨hw, by simp [he]⟩
  | fail k' hr hf =>
    by_cases he : k = k'
    · subst he; right; left; simp
    · right; right; exact List.mem_filter.mpr ⟨hw, by simp [he]⟩
  | waitRegister c' p k' => right; right; exact List.mem_append_left _ hw
  | _ => right; right; exact hw

theorem Out.newWait {s s' : Core K V} {x : Item K V} {is : List (Item K V)} (h : Out s x s' is) {k : K} {c q : Nat}
    (hw : (k, c, q) ∈ s'.awaiting) :
    (k, c, q) ∈ s.awaiting ∨ ∃ p, Item.record c p ∈ is ∧ s.keyAt c p = some k := by
  cases h with
  | set k' v hf => exact .inl (List.mem_filter.mp hw).1
  | fail k' hr hf => exact .inl (List.mem_filter.mp hw).1
  | waitRegister c' p k' hat hk hf hr =>
    rcases List.mem_append.mp hw with h | h
    · exact .inl h
    · cases List.mem_singleton.mp h
      exact .inr ⟨p, List.mem_singleton.mpr rfl, hk⟩
  | _ => exact .inl hw

theorem Out.newRecord {s s' : Core K V} {x : Item K V} {is : List (Item K V)} (h : Out s x s' is) {c p : Nat} {k : K}
    (hr : Item.record c p ∈ is) (hk : s.keyAt c p = some k) :
    s'.failed k = true ∨ ∃ q, (k, c, q) ∈ s'.awaiting := by
  cases h with
  | waitFailed c' p' k' hat hk' hf =>
    cases List.mem_singleton.mp hr
    rw [hk] at hk'; cases hk'
    exact .inl hf
  | waitRegister c' p' k' hat hk' hf hr' =>
    cases List.mem_singleton.mp hr
    rw [hk] at hk'; cases hk'
    exact .inr ⟨_, List.mem_append_right _ (List.mem_singleton.mpr rfl)⟩
  | set k' v => obtain ⟨w, -, hw⟩ := List.mem_map.mp hr; cases hw
  | fail k' => obtain ⟨w, -, hw⟩ := List.mem_map.mp hr; cases hw
  | _ => simp at hr

theorem Out.newSet {s s' : Core K V} {x : Item K V} {is : List (Item K V)} (h : Out s x s' is) {k : K} {v : V}
    (hs : Item.set k v ∈ is) : False := by
  cases h with
  | set k' v => obtain ⟨w, -, hw⟩ := List.mem_map.mp hs; cases hw
  | fail k' => obtain ⟨w, -, hw⟩ := List.mem_map.mp hs; cases hw
  | _ => simp at hs

theorem Out.newValue {s s' : Core K V} {x : Item K V} {is : List (Item K V)} (h : Out s x s' is) (k : K) :
    s'.value k = s.value k ∨ ∃ v, x = .set k v ∧ s'.value k = some v := by
  cases h with
  | set k' v hf =>
    by_cases he : k' = k
    · subst he; exact .inr ⟨v, rfl, if_pos rfl⟩
    · exact .inl (if_neg he)
  | _ => exact .inl rfl

theorem Out.newFail {s s' : Core K V} {x : Item K V} {is : List (Item K V)} (h : Out s x s' is) {k : K}
    (hs : Item.failNode k ∈ is) : ∃ c, s.owner c = some k ∧ Event.handled c ∈ s'.log := by
  cases h with
  | failOwner c o hh ho =>
    cases List.mem_singleton.mp hs
    exact ⟨c, ho, List.mem_cons_self⟩
  | set k' v => obtain ⟨w, -, hw⟩ := List.mem_map.mp hs; cases hw
  | fail k' => obtain ⟨w, -, hw⟩ := List.mem_map.mp hs; cases hw
  | _ => simp at hs

theorem Out.newFailed {s s' : Core K V} {x : Item K V} {is : List (Item K V)} (h : Out s x s' is) {k : K}
    (hs : s'.failed k = true) : s.failed k = true ∨ x = .failNode k := by
  cases h with
  | fail k' =>
    by_cases he : k' = k
    · subst he; exact .inr rfl
    · left; simpa [he] using hs
  | _ => exact .inl hs

theorem Out.newConsumed {s s' : Core K V} {x : Item K V} {is : List (Item K V)} (h : Out s x s' is) {c : Nat}
    {vs : List V} (hd : Event.consumed c vs ∈ s'.log) :
    Event.consumed c vs ∈ s.log ∨ s.values (s.keys c) = some vs := by
  cases h with
  | fail k hr hf =>
    rcases List.mem_append.mp hd with h | h
    · obtain ⟨w, -, hw⟩ := List.mem_map.mp h; cases hw
    · exact .inl h
  | consume c' vs' hall hv =>
    rcases List.mem_cons.mp hd with h | h
    · cases h; exact .inr hv
    · exact .inl h
  | create k hf => exact .inl (by simpa using hd)
  | waitFailed c p k => exact .inl (by simpa using hd)
  | failOwner c o => exact .inl (by simpa using hd)
  | failNone c => exact .inl (by simpa using hd)
  | _ => exact .inl hd

theorem Out.count {s s' : Core K V} {x : Item K V} {is : List (Item K V)} (h : Out s x s' is) (k : K) :
    tot (setI k) is + (s'.ready k).toNat ≤ setI k x + (s.ready k).toNat := by
  cases h with
  | set k' v hf =>
    simp only [tot_map]
    show tot (fun _ => 0) _ + _ ≤ _
    rw [tot_eq_zero (F := fun _ => 0) (fun _ _ => rfl)]
    by_cases he : k' = k
    · subst he
      simp only [setI, if_true, Core.ready]
      exact Nat.le_trans (by simp) (Nat.le_add_right 1 _)
    · simp [setI, he, Core.ready]
  | fail k' hr hf =>
    simp only [tot_map]
    show tot (fun _ => 0) _ + _ ≤ 0 + _
    rw [tot_eq_zero (F := fun _ => 0) (fun _ _ => rfl)]
    exact Nat.le_refl _
  | _ => simp [tot_cons, tot_nil, setI, Core.ready]

theorem Out.events {s s' : Core K V} {x : Item K V} {is : List (Item K V)} (h : Out s x s' is) (k : K) :
    tot (setE k) s'.log = tot (setE k) s.log := by
  cases h with
  | fail k' hr hf =>
    simp only [tot_map, tot_append]
    show tot (fun _ => 0) _ + _ = _
    rw [tot_eq_zero (F := fun _ => 0) (fun _ _ => rfl), Nat.zero_add]
  | _ => simp [tot_cons, setE]

/-! ## All steps -/

theorem inv2_op {s : Core K V} {pre post : List (Item K V)} {x : Item K V} (hi : Inv ⟨s, pre ++ x :: post⟩)
    (h2 : Inv2 ⟨s, pre ++ x :: post⟩) : Inv2 ⟨(exec x s).core, pre ++ (exec x s).items ++ post⟩ := by
  have hxm : x ∈ pre ++ x :: post := List.mem_append_right _ List.mem_cons_self
  have ho := exec_out (hi.good x hxm)
  have hle := exec_le x s
  have hka := exec_keyAt x s
  have how := exec_owner x s
  have hke := exec_keys x s
  generalize (exec x s).core = s' at *
  generalize (exec x s).items = is at *
  have new : ∀ y, y ∈ pre ++ is ++ post → y ∈ pre ++ x :: post ∨ y ∈ is := by
    intro y hy
    rcases List.mem_append.mp hy with hy | hy
    · rcases List.mem_append.mp hy with hy | hy
      · exact .inl (List.mem_append_left _ hy)
      · exact .inr hy
    · exact .inl (List.mem_append_right _ (List.mem_cons_of_mem _ hy))
  have old : ∀ y, y ∈ pre ++ x :: post → y = x ∨ y ∈ pre ++ is ++ post := by
    intro y hy
    rcases List.mem_append.mp hy with hy | hy
    · exact .inr (List.mem_append_left _ (List.mem_append_left _ hy))
    · rcases List.mem_cons.mp hy with hy | hy
      · exact .inl hy
      · exact .inr (List.mem_append_right _ hy)
  refine ⟨?_, ?_, ?_, ?_, ?_, ?_, ?_, ?_, ?_, ?_⟩
  · intro c o h
    have h' : s.owner c = some o := by rw [← how]; exact h
    exact ⟨hle.handler (h2.own c o h').1, hle.log _ (h2.own c o h').2⟩
  · intro k c q o hw h
    have h' : s.owner c = some o := by rw [← how]; exact h
    rcases ho.newWait hw with hw | ⟨p, hp, hk⟩
    · rcases h2.asked k c q o hw h' with hr | ⟨p, hp, hk⟩
      · exact .inl (hle.requests _ hr)
      · rcases old _ hp with hx | hp
        · subst hx
          cases ho with
          | recordOwner _ _ o' k' ho' hk' =>
            have hk'' : s.keyAt c p = some k := hk
            rw [hk''] at hk'; cases hk'
            rw [h'] at ho'; cases ho'
            exact .inl (List.mem_append_right _ (List.mem_singleton.mpr rfl))
          | recordNone _ _ ho' => rw [h'] at ho'; cases ho'
        · exact .inr ⟨p, hp, by show s'.keyAt c p = _; rw [hka]; exact hk⟩
    · exact .inr ⟨p, List.mem_append_left _ (List.mem_append_right _ hp), by show s'.keyAt c p = _; rw [hka]; exact hk⟩
  · intro c p k hr hk
    have hk' : s.keyAt c p = some k := by rw [← hka]; exact hk
    rcases new _ hr with hr | hr
    · rcases h2.recd c p k hr hk' with h | h | ⟨q, h⟩
      · exact .inl (hle.ready k h)
      · exact .inr (.inl (hle.failed k h))
      · rcases ho.waits h with h | h | h
        · exact .inl h
        · exact .inr (.inl h)
        · exact .inr (.inr ⟨q, h⟩)
    · exact .inr (ho.newRecord hr hk')
  · intro o k hr
    have hold : ∀ c q, s.owner c = some o → (k, c, q) ∈ s.awaiting →
        s'.ready k = true ∨ s'.failed k = true ∨ ∃ c q, s'.owner c = some o ∧ (k, c, q) ∈ s'.awaiting := by
      intro c q h1 h
      rcases ho.waits h with h | h | h
      · exact .inl h
      · exact .inr (.inl h)
      · exact .inr (.inr ⟨c, q, hle.owner h1, h⟩)
    have hreq : (o, k) ∈ s.requests → s'.ready k = true ∨ s'.failed k = true ∨
        ∃ c q, s'.owner c = some o ∧ (k, c, q) ∈ s'.awaiting := by
      intro hr
      rcases h2.real o k hr with h | h | ⟨c, q, h1, h⟩
      · exact .inl (hle.ready k h)
      · exact .inr (.inl (hle.failed k h))
      · exact hold c q h1 h
    have hr' : (o, k) ∈ s'.requests := hr
    rcases ho.requests with h | ⟨c, p, o', k', hx, ho', hk', h⟩
    · rw [h] at hr'
      exact hreq hr'
    · rw [h] at hr'
      rcases List.mem_append.mp hr' with hr' | hr'
      · exact hreq hr'
      · cases List.mem_singleton.mp hr'
        subst hx
        rcases h2.recd c p k hxm hk' with h | h | ⟨q, h⟩
        · exact .inl (hle.ready k h)
        · exact .inr (.inl (hle.failed k h))
        · exact hold c q ho' h
  · intro k v hs
    rcases new _ hs with hs | hs
    · exact hle.log _ (h2.setLog k v hs)
    · exact (ho.newSet hs).elim
  · intro k v hv
    have hv' : s'.value k = some v := hv
    rcases ho.newValue k with h | ⟨v', hx, h⟩
    · rw [h] at hv'
      exact hle.log _ (h2.valLog k v hv')
    · rw [h] at hv'
      cases hv'
      subst hx
      exact hle.log _ (h2.setLog k v hxm)
  · intro k
    have h1 : tot (setI k) (pre ++ x :: post) + (s.ready k).toNat ≤ tot (setE k) s.log := h2.count k
    have h3 : tot (setI k) is + (s'.ready k).toNat ≤ setI k x + (s.ready k).toNat := ho.count k
    have h4 : tot (setE k) s'.log = tot (setE k) s.log := ho.events k
    show tot (setI k) (pre ++ is ++ post) + (s'.ready k).toNat ≤ tot (setE k) s'.log
    rw [tot_append, tot_cons] at h1
    rw [tot_append, tot_append]
    omega
  · intro c vs h
    show Read s' (s'.keys c) vs
    rw [hke]
    rcases ho.newConsumed h with h | h
    · exact hle.read (h2.read c vs h)
    · exact hle.read (values_read h2.valLog _ _ h)
  · intro k h
    rcases new _ h with h | h
    · exact hle.reason (h2.failLog k h)
    · obtain ⟨c, h1, h3⟩ := ho.newFail h
      exact .inr ⟨c, hle.owner h1, h3⟩
  · intro k h
    rcases ho.newFailed h with h | h
    · exact hle.reason (h2.failedLog k h)
    · subst h
      exact hle.reason (h2.failLog k hxm)

omit [DecidableEq K] in
theorem call_owner {s : Core K V} {r : Call K} {c : Nat} (h : c ≠ s.calls.length) :
    ({ s with calls := s.calls ++ [r] } : Core K V).owner c = s.owner c := by
  unfold Core.owner
  show ((s.calls ++ [r])[c]?).bind _ = _
  rcases Nat.lt_or_ge c s.calls.length with h' | h'
  · rw [List.getElem?_append_left h']
  · rw [List.getElem?_append_right h', List.getElem?_eq_none_iff.mpr h',
      List.getElem?_eq_none_iff.mpr (by simp; omega)]

omit [DecidableEq K] in
theorem call_keys {s : Core K V} {r : Call K} {c : Nat} (h : c < s.calls.length) :
    ({ s with calls := s.calls ++ [r] } : Core K V).keys c = s.keys c := by
  unfold Core.keys
  show ((s.calls ++ [r])[c]?.map _).getD [] = _
  rw [List.getElem?_append_left h]

theorem inv2 {s : State K V} (h : Reachable s) : Inv2 s := by
  induction h with
  | start =>
    refine ⟨?_, ?_, ?_, ?_, ?_, ?_, ?_, ?_, ?_, ?_⟩
    · intro c o h; cases h
    · intro k c q o h; cases h
    · intro c p k h; cases h
    · intro o k h; cases h
    · intro k v h; cases h
    · intro k v h; cases h
    · intro k; exact Nat.le_refl _
    · intro c vs h; cases h
    · intro k h; cases h
    · intro k h; cases h
  | step hre hs ih =>
    have hi := inv hre
    cases hs with
    | op s pre post x => exact inv2_op hi ih
    | setter s pool k v hc =>
      have hle : Le s { s with log := .setterCalled k v :: s.log } := ⟨fun _ h => h, fun _ h => h, fun _ h => h,
        fun _ _ h => h, fun _ h => List.mem_cons_of_mem _ h, fun _ h => h⟩
      refine ⟨?_, ?_, ?_, ih.real, ?_, ?_, ?_, ?_, ?_, ?_⟩
      · intro c o h
        exact ⟨(ih.own c o h).1, hle.log _ (ih.own c o h).2⟩
      · intro k' c q o h1 h2
        rcases ih.asked k' c q o h1 h2 with h | ⟨p, hp, hk⟩
        · exact .inl h
        · exact .inr ⟨p, List.mem_cons_of_mem _ hp, hk⟩
      · intro c p k' h1 h2
        exact ih.recd c p k' (by simpa using h1) h2
      · intro k' v' h
        rcases List.mem_cons.mp h with h | h
        · cases h; exact List.mem_cons_self
        · exact hle.log _ (ih.setLog k' v' h)
      · intro k' v' h
        exact hle.log _ (ih.valLog k' v' h)
      · intro k'
        have := ih.count k'
        rw [tot_cons, tot_cons]
        simp only [setI, setE]
        have h2 : tot (setI k') pool + (s.ready k').toNat ≤ tot (setE k') s.log := this
        show _ + tot (setI k') pool + (s.ready k').toNat ≤ _ + tot (setE k') s.log
        omega
      · intro c vs h
        exact hle.read (ih.read c vs (by simpa using h))
      · intro k' h
        exact hle.reason (ih.failLog k' (by simpa using h))
      · intro k' h
        exact hle.reason (ih.failedLog k' h)
    | fatal s pool k hc =>
      have hle : Le s { s with log := .fatalCalled k :: s.log } := ⟨fun _ h => h, fun _ h => h, fun _ h => h,
        fun _ _ h => h, fun _ h => List.mem_cons_of_mem _ h, fun _ h => h⟩
      refine ⟨?_, ?_, ?_, ih.real, ?_, ?_, ?_, ?_, ?_, ?_⟩
      · intro c o h
        exact ⟨(ih.own c o h).1, hle.log _ (ih.own c o h).2⟩
      · intro k' c q o h1 h2
        rcases ih.asked k' c q o h1 h2 with h | ⟨p, hp, hk⟩
        · exact .inl h
        · exact .inr ⟨p, List.mem_cons_of_mem _ hp, hk⟩
      · intro c p k' h1 h2
        exact ih.recd c p k' (by simpa using h1) h2
      · intro k' v' h
        exact hle.log _ (ih.setLog k' v' (by simpa using h))
      · intro k' v' h
        exact hle.log _ (ih.valLog k' v' h)
      · intro k'
        have h2 : tot (setI k') pool + (s.ready k').toNat ≤ tot (setE k') s.log := ih.count k'
        rw [tot_cons, tot_cons]
        simp only [setI, setE]
        show 0 + tot (setI k') pool + (s.ready k').toNat ≤ 0 + tot (setE k') s.log
        omega
      · intro c vs h
        exact hle.read (ih.read c vs (by simpa using h))
      · intro k' h
        rcases List.mem_cons.mp h with h | h
        · cases h; exact .inl List.mem_cons_self
        · exact hle.reason (ih.failLog k' h)
      · intro k' h
        exact hle.reason (ih.failedLog k' h)
    | call s pool r hr =>
      have hle : Le s { s with calls := s.calls ++ [r] } := call_le
      have hnew : ∀ y : Item K V, y ∈ (if r.keys = [] then (.consume s.calls.length : Item K V)
          else .ensure s.calls.length 0) :: pool → y ∈ pool ∨ y = .consume s.calls.length ∨ y = .ensure s.calls.length 0 := by
        intro y hy
        rcases List.mem_cons.mp hy with hy | hy
        · right
          by_cases hk : r.keys = []
          · rw [if_pos hk] at hy; exact .inl hy
          · rw [if_neg hk] at hy; exact .inr hy
        · exact .inl hy
      have awLt : ∀ k c q, (k, c, q) ∈ s.awaiting → c < s.calls.length := by
        intro k c q h
        obtain ⟨p, -, hat, -⟩ := hi.awaiting k c q h
        exact hat.lt
      refine ⟨?_, ?_, ?_, ?_, ?_, ih.valLog, ?_, ?_, ?_, ?_⟩
      · intro c o h
        by_cases hc : c = s.calls.length
        · subst hc
          have hro : r.owner = some o := by
            have : ((s.calls ++ [r])[s.calls.length]?).bind Call.owner = some o := h
            simpa using this
          refine ⟨?_, (hr o hro).1⟩
          show ((s.calls ++ [r])[s.calls.length]?.map Call.handler).getD false = true
          simpa using (hr o hro).2
        · have h' : s.owner c = some o := by rw [← call_owner (r := r) hc]; exact h
          exact ⟨hle.handler (ih.own c o h').1, (ih.own c o h').2⟩
      · intro k c q o h1 h2
        have hlt := awLt k c q h1
        have h2' : s.owner c = some o := by rw [← call_owner (r := r) (Nat.ne_of_lt hlt)]; exact h2
        rcases ih.asked k c q o h1 h2' with h | ⟨p, hp, hk⟩
        · exact .inl h
        · exact .inr ⟨p, List.mem_cons_of_mem _ hp, by rw [call_keyAt hlt]; exact hk⟩
      · intro c p k h1 h2
        rcases hnew _ h1 with h1 | h1 | h1
        · have hlt : c < s.calls.length := At.lt (hi.good _ h1)
          exact ih.recd c p k h1 (by rw [← call_keyAt (r := r) hlt]; exact h2)
        · cases h1
        · cases h1
      · intro o k h
        rcases ih.real o k h with h | h | ⟨c, q, h1, h⟩
        · exact .inl h
        · exact .inr (.inl h)
        · exact .inr (.inr ⟨c, q, hle.owner h1, h⟩)
      · intro k v h
        rcases hnew _ h with h | h | h
        · exact ih.setLog k v h
        · cases h
        · cases h
      · intro k
        have h2 : tot (setI k) pool + (s.ready k).toNat ≤ tot (setE k) s.log := ih.count k
        have hz : setI k (if r.keys = [] then (.consume s.calls.length : Item K V) else .ensure s.calls.length 0) = 0 := by
          split <;> rfl
        rw [tot_cons, hz]
        show 0 + tot (setI k) pool + (s.ready k).toNat ≤ tot (setE k) s.log
        omega
      · intro c vs h
        obtain ⟨r', h1, -⟩ := hi.consumed c vs h
        have hlt : c < s.calls.length := by
          rcases Nat.lt_or_ge c s.calls.length with h' | h'
          · exact h'
          · have h1' : s.calls[c]? = some r' := h1
            rw [List.getElem?_eq_none_iff.mpr h'] at h1'; cases h1'
        rw [call_keys hlt]
        exact ih.read c vs h
      · intro k h
        rcases hnew _ h with h | h | h
        · exact hle.reason (ih.failLog k h)
        · cases h
        · cases h
      · intro k h
        exact hle.reason (ih.failedLog k h)

end Verif.Async
