import Verif.Async.Out

/-!
# The asynchronous map: the invariants hold in all reachable states
-/

namespace Verif.Async

variable {K V : Type} [DecidableEq K]

theorem inv_start : Inv (start : State K V) := by
  refine ⟨?_, ?_, ?_, ?_, ?_, ?_, ?_, ?_, ?_, ?_, ?_, ?_⟩
  · intro x hx; cases hx
  · intro k c q h; cases h
  · intro k c h; cases h
  · intro k h; cases h
  · intro h; cases h
  · intro c h; cases h
  · intro c vs h; cases h
  · intro c h; cases h
  · intro c; rfl
  · intro c; rfl
  · intro k c h; cases h
  · intro c h; cases h

theorem Out.excl {s s' : Core K V} {x : Item K V} {is : List (Item K V)} (h : Out s x s' is)
    (hex : ∀ k, s.ready k = true → s.failed k = false) : ∀ k, s'.ready k = true → s'.failed k = false := by
  cases h with
  | set k v hf =>
    intro k' hr
    by_cases he : k = k'
    · subst he; exact hf
    · refine hex k' ?_
      simpa [Core.ready, he] using hr
  | fail k hr hf =>
    intro k' hr'
    have hr'' : s.ready k' = true := hr'
    have hne : k ≠ k' := by
      rintro rfl
      rw [hr] at hr''; cases hr''
    simp [hne, hex k' hr'']
  | _ => exact hex

theorem Out.defined {s s' : Core K V} {x : Item K V} {is : List (Item K V)} (h : Out s x s' is)
    (hd : Event.undefined ∉ s.log) : Event.undefined ∉ s'.log := by
  cases h with
  | fail k hr hf =>
    intro h
    rcases List.mem_append.mp h with h | h
    · obtain ⟨w, -, hw⟩ := List.mem_map.mp h; cases hw
    · exact hd h
  | create k hf => simpa using hd
  | waitFailed c p k => simpa using hd
  | consume c vs => simpa using hd
  | failOwner c o => simpa using hd
  | failNone c => simpa using hd
  | _ => exact hd

theorem Out.dropped {s s' : Core K V} {x : Item K V} {is : List (Item K V)} (h : Out s x s' is)
    (ha : ∀ k c q, (k, c, q) ∈ s.awaiting → ∃ p, q = p + 1 ∧ At s c p ∧ s.keyAt c p = some k ∧
      s.ready k = false ∧ s.failed k = false) {c : Nat} (hd : Event.dropped c ∈ s'.log) :
    Event.dropped c ∈ s.log ∨ ∃ p k, At s c p ∧ s.keyAt c p = some k ∧ s'.failed k = true := by
  cases h with
  | fail k hr hf =>
    rcases List.mem_append.mp hd with h | h
    · obtain ⟨⟨k', c', q⟩, hw, he⟩ := List.mem_map.mp h
      cases he
      obtain ⟨h1, h2⟩ := List.mem_filter.mp hw
      have h3 : k' = k := by simpa using h2
      subst h3
      obtain ⟨p, -, hat, hk, -, -⟩ := ha _ _ _ h1
      exact .inr ⟨p, k', hat, hk, by simp⟩
    · exact .inl h
  | waitFailed c' p k hat hk hf =>
    rcases List.mem_cons.mp hd with h | h
    · cases h; exact .inr ⟨p, k, hat, hk, hf⟩
    · exact .inl h
  | create k hf => exact .inl (by simpa using hd)
  | consume c vs => exact .inl (by simpa using hd)
  | failOwner c o => exact .inl (by simpa using hd)
  | failNone c => exact .inl (by simpa using hd)
  | _ => exact .inl hd

theorem Out.consumed {s s' : Core K V} {x : Item K V} {is : List (Item K V)} (h : Out s x s' is)
    {c : Nat} {vs : List V} (hd : Event.consumed c vs ∈ s'.log) : Event.consumed c vs ∈ s.log ∨ AllReady s c := by
  cases h with
  | fail k hr hf =>
    rcases List.mem_append.mp hd with h | h
    · obtain ⟨w, -, hw⟩ := List.mem_map.mp h; cases hw
    · exact .inl h
  | consume c' vs' hall hv =>
    rcases List.mem_cons.mp hd with h | h
    · cases h; exact .inr hall
    · exact .inl h
  | create k hf => exact .inl (by simpa using hd)
  | waitFailed c p k => exact .inl (by simpa using hd)
  | failOwner c o => exact .inl (by simpa using hd)
  | failNone c => exact .inl (by simpa using hd)
  | _ => exact .inl hd

theorem Out.handled {s s' : Core K V} {x : Item K V} {is : List (Item K V)} (h : Out s x s' is)
    {c : Nat} (hd : Event.handled c ∈ s'.log) : Event.handled c ∈ s.log ∨ s.handler c = true := by
  cases h with
  | fail k hr hf =>
    rcases List.mem_append.mp hd with h | h
    · obtain ⟨w, -, hw⟩ := List.mem_map.mp h; cases hw
    · exact .inl h
  | failOwner c' o hh ho =>
    rcases List.mem_cons.mp hd with h | h
    · cases h; exact .inr hh
    · exact .inl h
  | failNone c' hh ho =>
    rcases List.mem_cons.mp hd with h | h
    · cases h; exact .inr hh
    · exact .inl h
  | create k hf => exact .inl (by simpa using hd)
  | waitFailed c p k => exact .inl (by simpa using hd)
  | consume c vs => exact .inl (by simpa using hd)
  | _ => exact .inl hd

theorem Out.failing {s s' : Core K V} {x : Item K V} {is : List (Item K V)} (h : Out s x s' is)
    {k : K} {c : Nat} (hd : (k, c) ∈ s'.failing) : (k, c) ∈ s.failing ∨ s.handler c = true := by
  cases h with
  | fail k' hr hf => exact .inl (List.mem_filter.mp hd).1
  | set k' v hf => exact .inl (List.mem_filter.mp hd).1
  | failRegister c' p k' ha hh hk hf =>
    rcases List.mem_append.mp hd with h | h
    · exact .inl h
    · cases List.mem_singleton.mp h; exact .inr hh
  | _ => exact .inl hd

theorem Out.awaiting {s s' : Core K V} {x : Item K V} {is : List (Item K V)} (h : Out s x s' is)
    {k : K} {c q : Nat} (hd : (k, c, q) ∈ s'.awaiting)
    (ha : ∀ k c q, (k, c, q) ∈ s.awaiting → ∃ p, q = p + 1 ∧ At s c p ∧ s.keyAt c p = some k ∧
      s.ready k = false ∧ s.failed k = false) :
    ∃ p, q = p + 1 ∧ At s c p ∧ s.keyAt c p = some k ∧ s'.ready k = false ∧ s'.failed k = false := by
  cases h with
  | fail k' hr hf =>
    obtain ⟨h1, h2⟩ := List.mem_filter.mp hd
    have hne : k ≠ k' := by simpa using h2
    obtain ⟨p, h3, h4, h5, h6, h7⟩ := ha k c q h1
    exact ⟨p, h3, h4, h5, h6, by simp [h7, Ne.symm hne]⟩
  | set k' v hf =>
    obtain ⟨h1, h2⟩ := List.mem_filter.mp hd
    have hne : k ≠ k' := by simpa using h2
    obtain ⟨p, h3, h4, h5, h6, h7⟩ := ha k c q h1
    refine ⟨p, h3, h4, h5, ?_, h7⟩
    simpa [Core.ready, Ne.symm hne] using h6
  | waitRegister c' p k' hat hk hf hr =>
    rcases List.mem_append.mp hd with h | h
    · exact ha k c q h
    · cases List.mem_singleton.mp h
      exact ⟨p, rfl, hat, hk, hr, hf⟩
  | _ => exact ha k c q hd

theorem creI_congr {s s' : Core K V} (h : s'.keyAt = s.keyAt) (k : K) :
    (creI s' k : Item K V → Nat) = creI s k := by
  funext y
  cases y <;> simp only [creI, h]

theorem regI_congr {s s' : Core K V} (h : s'.keyAt = s.keyAt) (k : K) (c : Nat) :
    (regI s' k c : Item K V → Nat) = regI s k c := by
  funext y
  cases y <;> simp only [regI, h]

omit [DecidableEq K] in
theorem losI_congr {s s' : Core K V} (h : s'.keyAt = s.keyAt) (h' : s'.failed = s.failed) (c : Nat) :
    (losI s' c : Item K V → Nat) = losI s c := by
  funext y
  cases y <;> simp only [losI, h, h']

theorem losI_fail {s s' : Core K V} {k : K} (h : s'.keyAt = s.keyAt) (hk : s.failed k = false)
    (h' : s'.failed = fun k' => decide (k = k') || s.failed k') (c : Nat) (y : Item K V) :
    losI s' c y = losI s c y + regI s k c y := by
  have key : ∀ c' p, (if c' = c ∧ (s'.keyAt c' p).any s'.failed = true then 1 else 0) =
      (if c' = c ∧ (s.keyAt c' p).any s.failed = true then 1 else 0) +
        (if c' = c ∧ s.keyAt c' p = some k then 1 else 0) := by
    intro c' p
    rw [h, h']
    by_cases hc : c' = c
    · cases hka : s.keyAt c' p with
      | none => simp
      | some k' =>
        by_cases he : k = k'
        · subst he; simp [hc, hk]
        · have he' : k' ≠ k := Ne.symm he
          simp [hc, he, he']
    · simp [hc]
  cases y <;> simp only [losI, regI]
  · exact key _ _
  · exact key _ _

theorem inv_op {s : Core K V} {pre post : List (Item K V)} {x : Item K V} (hi : Inv ⟨s, pre ++ x :: post⟩) :
    Inv ⟨(exec x s).core, pre ++ (exec x s).items ++ post⟩ := by
  have hx : Good s x := hi.good x (List.mem_append_right _ List.mem_cons_self)
  have ho := exec_out hx
  have hle := exec_le x s
  have hka := exec_keyAt x s
  have hha := exec_handler x s
  have hca := exec_calls x s
  have hgi := exec_good hx hi.awaiting hi.failing
  generalize (exec x s).core = s' at *
  generalize (exec x s).items = is at *
  have spl : ∀ F : Item K V → Nat, tot F (pre ++ x :: post) = tot F pre + F x + tot F post := by
    intro F; rw [tot_append, tot_cons]; omega
  have spl' : ∀ F : Item K V → Nat, tot F (pre ++ is ++ post) = tot F pre + tot F is + tot F post := by
    intro F; rw [tot_append, tot_append]
  refine ⟨?_, ?_, ?_, ?_, ?_, ?_, ?_, ?_, ?_, ?_, ?_, ?_⟩
  · intro y hy
    rcases List.mem_append.mp hy with hy | hy
    · rcases List.mem_append.mp hy with hy | hy
      · exact hle.good (hi.good y (List.mem_append_left _ hy))
      · exact hgi y hy
    · exact hle.good (hi.good y (List.mem_append_right _ (List.mem_cons_of_mem _ hy)))
  · intro k c q h
    obtain ⟨p, h1, h2, h3, h4, h5⟩ := ho.awaiting h hi.awaiting
    exact ⟨p, h1, hle.at h2, by show s'.keyAt c p = _; rw [hka]; exact h3, h4, h5⟩
  · intro k c h
    rcases ho.failing h with h | h
    · exact hle.handler (hi.failing k c h)
    · exact hle.handler h
  · exact ho.excl hi.excl
  · exact ho.defined hi.defined
  · intro c h
    rcases ho.dropped hi.awaiting h with h | ⟨p, k, h1, h2, h3⟩
    · obtain ⟨p, k, h1, h2, h3⟩ := hi.dropped c h
      exact ⟨p, k, hle.at h1, by show s'.keyAt c p = _; rw [hka]; exact h2, hle.failed k h3⟩
    · exact ⟨p, k, hle.at h1, by show s'.keyAt c p = _; rw [hka]; exact h2, h3⟩
  · intro c vs h
    rcases ho.consumed h with h | h
    · exact hle.allReady (hi.consumed c vs h)
    · exact hle.allReady h
  · intro c h
    rcases ho.handled h with h | h
    · exact hle.handler (hi.handled c h)
    · exact hle.handler h
  · intro c
    have h1 := hi.tok c
    have h2 := ho.tok c
    rw [spl] at h1
    rw [spl']
    show _ = if c < s'.calls.length then 1 else 0
    rw [hca]
    show _ + tot (tokW c) s'.awaiting + tot (tokE c) s'.log = _
    have h1' : tot (tokI c) pre + tokI c x + tot (tokI c) post + tot (tokW c) s.awaiting + tot (tokE c) s.log =
      if c < s.calls.length then 1 else 0 := h1
    omega
  · intro k
    have h1 : tot (creI s k) (pre ++ x :: post) + tot (creE k) s.log = if s.flag k = true then 1 else 0 := hi.cre k
    have h2 := ho.cre k
    rw [spl] at h1
    show tot (creI s' k) (pre ++ is ++ post) + tot (creE k) s'.log = if s'.flag k = true then 1 else 0
    rw [creI_congr hka, spl']
    omega
  · intro k c hc hr hf
    have hc' : s.handler c = true := by rw [← hha]; exact hc
    have hr' : s.ready k = false := by
      cases h : s.ready k with
      | false => rfl
      | true => have := hle.ready k h; rw [show s'.ready k = false from hr] at this; cases this
    have hf' : s.failed k = false := by
      cases h : s.failed k with
      | false => rfl
      | true => have := hle.failed k h; rw [show s'.failed k = false from hf] at this; cases this
    have h1 : tot (regF k c) s.failing = tot (regI s k c) (pre ++ x :: post) + tot (regW k c) s.awaiting :=
      hi.reg k c hc' hr' hf'
    have h2 := ho.reg hc' hr hf
    rw [spl] at h1
    show tot (regF k c) s'.failing = tot (regI s' k c) (pre ++ is ++ post) + tot (regW k c) s'.awaiting
    rw [regI_congr hka, spl']
    omega
  · intro c hc
    have hc' : s.handler c = true := by rw [← hha]; exact hc
    have h1 : tot (hanI c) (pre ++ x :: post) + tot (hanE c) s.log =
      tot (losI s c) (pre ++ x :: post) + tot (losE c) s.log := hi.han c hc'
    show tot (hanI c) (pre ++ is ++ post) + tot (hanE c) s'.log =
      tot (losI s' c) (pre ++ is ++ post) + tot (losE c) s'.log
    by_cases he : s'.failed = s.failed
    · have h2 := ho.han hc' hi.excl he
      rw [losI_congr hka he, spl', spl']
      rw [spl, spl] at h1
      omega
    · clear hgi
      cases ho with
      | fail k hr hf =>
        have h2 : tot (regF k c) s.failing = tot (regI s k c) (pre ++ .failNode k :: post) + tot (regW k c) s.awaiting :=
          hi.reg k c hc' hr hf
        have hlos : ∀ l : List (Item K V), tot (losI (V := V) { s with
            failed := fun k' => decide (k = k') || s.failed k'
            awaiting := s.awaiting.filter fun w => !decide (w.1 = k)
            failing := s.failing.filter fun w => !decide (w.1 = k)
            log := ((s.awaiting.filter fun w => decide (w.1 = k)).map fun w => .dropped w.2.1) ++ s.log } c) l =
            tot (losI s c) l + tot (regI s k c) l := by
          intro l
          rw [← tot_add]
          exact tot_congr fun y _ => losI_fail hka hf rfl c y
        rw [hlos, spl', spl', spl', tot_append, tot_append]
        rw [spl, spl] at h1
        rw [spl] at h2
        simp only [tot_map, tot_filter_eq]
        have e1 : tot (fun a : K × Nat => if decide (a.1 = k) = true then hanI (V := V) (K := K) c (.failTask a.2) else 0)
            s.failing = tot (regF k c) s.failing := by
          refine tot_congr fun w _ => ?_
          simp only [hanI, regF]
          by_cases h1 : w.1 = k <;> simp [h1]
        have e2 : tot (fun a : K × Nat × Nat => if decide (a.1 = k) = true then losE (V := V) (K := K) c (.dropped a.2.1) else 0)
            s.awaiting = tot (regW k c) s.awaiting := by
          refine tot_congr fun w _ => ?_
          simp only [losE, regW]
          by_cases h1 : w.1 = k <;> simp [h1]
        have e3 : tot (fun a : K × Nat × Nat => if decide (a.1 = k) = true then hanE (V := V) (K := K) c (.dropped a.2.1) else 0)
            s.awaiting = 0 := tot_eq_zero fun w _ => by simp [hanE]
        have e4 : tot (fun a : K × Nat => if decide (a.1 = k) = true then losI (V := V) s c (.failTask a.2) else 0)
            s.failing = 0 := tot_eq_zero fun w _ => by simp [losI]
        have e5 : tot (fun a : K × Nat => if decide (a.1 = k) = true then regI (V := V) s k c (.failTask a.2) else 0)
            s.failing = 0 := tot_eq_zero fun w _ => by simp [regI]
        rw [e1, e2, e3, e4, e5]
        have z1 : hanI c (Item.failNode k : Item K V) = 0 := rfl
        have z2 : losI s c (Item.failNode k : Item K V) = 0 := rfl
        have z3 : regI s k c (Item.failNode k : Item K V) = 0 := rfl
        omega
      | _ => exact absurd rfl he

theorem inv_setter {s : Core K V} {pool : List (Item K V)} {k : K} {v : V} (hi : Inv ⟨s, pool⟩) :
    Inv ⟨{ s with log := .setterCalled k v :: s.log }, .set k v :: pool⟩ := by
  refine ⟨?_, hi.awaiting, hi.failing, hi.excl, ?_, ?_, ?_, ?_, ?_, ?_, ?_, ?_⟩
  · intro x hx
    rcases List.mem_cons.mp hx with rfl | hx
    · trivial
    · have hle : Le s { s with log := .setterCalled k v :: s.log } := ⟨fun _ h => h, fun _ h => h, fun _ h => h,
        fun _ _ h => h, fun _ h => List.mem_cons_of_mem _ h, fun _ h => h⟩
      exact hle.good (hi.good x hx)
  · simpa using hi.defined
  · intro c h
    exact hi.dropped c (by simpa using h)
  · intro c vs h
    exact hi.consumed c vs (by simpa using h)
  · intro c h
    exact hi.handled c (by simpa using h)
  · intro c
    rw [tot_cons, tot_cons]
    have := hi.tok c
    simpa [tokI, tokE] using this
  · intro k'
    rw [tot_cons, tot_cons]
    have := hi.cre k'
    have e : creI { s with log := .setterCalled k v :: s.log } k' = creI s k' := creI_congr rfl k'
    simp only [e]
    simpa [creI, creE] using this
  · intro k' c hc hr hf
    rw [tot_cons]
    have := hi.reg k' c hc hr hf
    have e : regI { s with log := .setterCalled k v :: s.log } k' c = regI s k' c := regI_congr rfl k' c
    simp only [e]
    simpa [regI] using this
  · intro c hc
    rw [tot_cons, tot_cons, tot_cons, tot_cons]
    have := hi.han c hc
    have e : losI { s with log := .setterCalled k v :: s.log } c = losI s c := losI_congr rfl rfl c
    simp only [e]
    simpa [hanI, hanE, losI, losE] using this

theorem inv_fatal {s : Core K V} {pool : List (Item K V)} {k : K} (hi : Inv ⟨s, pool⟩) :
    Inv ⟨{ s with log := .fatalCalled k :: s.log }, .failNode k :: pool⟩ := by
  refine ⟨?_, hi.awaiting, hi.failing, hi.excl, ?_, ?_, ?_, ?_, ?_, ?_, ?_, ?_⟩
  · intro x hx
    rcases List.mem_cons.mp hx with rfl | hx
    · trivial
    · have hle : Le s { s with log := .fatalCalled k :: s.log } := ⟨fun _ h => h, fun _ h => h, fun _ h => h,
        fun _ _ h => h, fun _ h => List.mem_cons_of_mem _ h, fun _ h => h⟩
      exact hle.good (hi.good x hx)
  · simpa using hi.defined
  · intro c h
    exact hi.dropped c (by simpa using h)
  · intro c vs h
    exact hi.consumed c vs (by simpa using h)
  · intro c h
    exact hi.handled c (by simpa using h)
  · intro c
    rw [tot_cons, tot_cons]
    have := hi.tok c
    simpa [tokI, tokE] using this
  · intro k'
    rw [tot_cons, tot_cons]
    have := hi.cre k'
    have e : creI { s with log := .fatalCalled k :: s.log } k' = creI s k' := creI_congr rfl k'
    simp only [e]
    simpa [creI, creE] using this
  · intro k' c hc hr hf
    rw [tot_cons]
    have := hi.reg k' c hc hr hf
    have e : regI { s with log := .fatalCalled k :: s.log } k' c = regI s k' c := regI_congr rfl k' c
    simp only [e]
    simpa [regI] using this
  · intro c hc
    rw [tot_cons, tot_cons, tot_cons, tot_cons]
    have := hi.han c hc
    have e : losI { s with log := .fatalCalled k :: s.log } c = losI s c := losI_congr rfl rfl c
    simp only [e]
    simpa [hanI, hanE, losI, losE] using this

/-! ## A further call -/

section Call

variable {s : Core K V} {r : Call K}

omit [DecidableEq K] in
theorem call_le : Le s { s with calls := s.calls ++ [r] } := by
  refine ⟨fun _ h => h, fun _ h => h, fun _ h => h, ?_, fun _ h => h, fun _ h => h⟩
  intro c r' h
  have hlt : c < s.calls.length := by
    rcases Nat.lt_or_ge c s.calls.length with h' | h'
    · exact h'
    · rw [List.getElem?_eq_none_iff.mpr h'] at h; cases h
  show (s.calls ++ [r])[c]? = _
  rw [List.getElem?_append_left hlt]
  exact h

omit [DecidableEq K] in
theorem call_keyAt {c p : Nat} (h : c < s.calls.length) :
    ({ s with calls := s.calls ++ [r] } : Core K V).keyAt c p = s.keyAt c p := by
  unfold Core.keyAt
  show ((s.calls ++ [r])[c]?).bind _ = _
  rw [List.getElem?_append_left h]

omit [DecidableEq K] in
theorem call_handler {c : Nat} (h : c ≠ s.calls.length) :
    ({ s with calls := s.calls ++ [r] } : Core K V).handler c = s.handler c := by
  unfold Core.handler
  show ((s.calls ++ [r])[c]?.map _).getD false = _
  rcases Nat.lt_or_ge c s.calls.length with h' | h'
  · rw [List.getElem?_append_left h']
  · rw [List.getElem?_append_right h', List.getElem?_eq_none_iff.mpr h',
      List.getElem?_eq_none_iff.mpr (by simp; omega)]

omit [DecidableEq K] in
theorem At.lt {c p : Nat} (h : At s c p) : c < s.calls.length := by
  obtain ⟨r, h1, -⟩ := h
  rcases Nat.lt_or_ge c s.calls.length with h' | h'
  · exact h'
  · rw [List.getElem?_eq_none_iff.mpr h'] at h1; cases h1

omit [DecidableEq K] in
theorem handler_lt' {c : Nat} (h : s.handler c = true) : c < s.calls.length := by
  obtain ⟨r, h1, -⟩ := handler_lt h
  rcases Nat.lt_or_ge c s.calls.length with h' | h'
  · exact h'
  · rw [List.getElem?_eq_none_iff.mpr h'] at h1; cases h1

theorem call_creI {k : K} {x : Item K V} (hx : Good s x) :
    creI { s with calls := s.calls ++ [r] } k x = creI s k x := by
  cases x with
  | ensurePush c i =>
    obtain ⟨r', h1, -⟩ := hx
    have hlt : c < s.calls.length := by
      rcases Nat.lt_or_ge c s.calls.length with h' | h'
      · exact h'
      · rw [List.getElem?_eq_none_iff.mpr h'] at h1; cases h1
    simp only [creI]
    rw [call_keyAt hlt]
  | _ => rfl

theorem call_regI {k : K} {c : Nat} {x : Item K V} (hx : Good s x) :
    regI { s with calls := s.calls ++ [r] } k c x = regI s k c x := by
  cases x with
  | waitCheck c p => simp only [regI]; rw [call_keyAt (At.lt hx)]
  | waitLock c p => simp only [regI]; rw [call_keyAt (At.lt hx)]
  | _ => rfl

omit [DecidableEq K] in
theorem call_losI {c : Nat} {x : Item K V} (hx : Good s x) :
    losI { s with calls := s.calls ++ [r] } c x = losI s c x := by
  cases x with
  | waitCheck c p => simp only [losI]; rw [call_keyAt (At.lt hx)]
  | waitLock c p => simp only [losI]; rw [call_keyAt (At.lt hx)]
  | _ => rfl

/-- No item belongs to a call that is yet to come. -/
theorem no_reg {k : K} {x : Item K V} (hx : Good s x) : regI s k s.calls.length x = 0 := by
  cases x with
  | waitCheck c p =>
    have := At.lt hx
    exact if_neg fun h => by omega
  | waitLock c p =>
    have := At.lt hx
    exact if_neg fun h => by omega
  | _ => rfl

omit [DecidableEq K] in
theorem no_los {x : Item K V} (hx : Good s x) : losI s s.calls.length x = 0 := by
  cases x with
  | waitCheck c p =>
    have := At.lt hx
    exact if_neg fun h => by omega
  | waitLock c p =>
    have := At.lt hx
    exact if_neg fun h => by omega
  | _ => rfl

omit [DecidableEq K] in
theorem no_han {x : Item K V} (hx : Good s x) : hanI s.calls.length x = 0 := by
  cases x with
  | failTask c =>
    have := handler_lt' (s := s) hx
    exact if_neg fun h => by omega
  | _ => rfl

theorem inv_call {pool : List (Item K V)} (hi : Inv ⟨s, pool⟩) :
    Inv ⟨{ s with calls := s.calls ++ [r] },
      (if r.keys = [] then .consume s.calls.length else .ensure s.calls.length 0) :: pool⟩ := by
  have hle : Le s { s with calls := s.calls ++ [r] } := call_le
  have hnew : (s.calls ++ [r])[s.calls.length]? = some r := by simp
  generalize hx : (if r.keys = [] then (.consume s.calls.length : Item K V) else .ensure s.calls.length 0) = x
  have hx1 : ∀ c, tokI c x = if s.calls.length = c then 1 else 0 := by
    intro c; subst hx; split <;> rfl
  have hx2 : ∀ (s : Core K V) (k : K), creI s k x = 0 := by
    intro s k; subst hx; split <;> rfl
  have hx3 : ∀ (s : Core K V) (k : K) (c : Nat), regI s k c x = 0 := by
    intro s k c; subst hx; split <;> rfl
  have hx4 : ∀ (s : Core K V) (c : Nat), losI s c x = 0 := by
    intro s c; subst hx; split <;> rfl
  have hx5 : ∀ c : Nat, hanI c x = 0 := by
    intro c; subst hx; split <;> rfl
  refine ⟨?_, ?_, ?_, hi.excl, hi.defined, ?_, ?_, ?_, ?_, ?_, ?_, ?_⟩
  · intro y hy
    rcases List.mem_cons.mp hy with rfl | hy
    · subst hx
      split
      · rename_i hk
        exact ⟨r, hnew, fun k h => by rw [hk] at h; cases h⟩
      · rename_i hk
        exact ⟨r, hnew, hk, Nat.zero_le _, fun j k h => absurd h (Nat.not_lt_zero j)⟩
    · exact hle.good (hi.good y hy)
  · intro k c q h
    obtain ⟨p, h1, h2, h3, h4, h5⟩ := hi.awaiting k c q h
    exact ⟨p, h1, hle.at h2, by rw [call_keyAt (At.lt h2)]; exact h3, h4, h5⟩
  · intro k c h
    exact hle.handler (hi.failing k c h)
  · intro c h
    obtain ⟨p, k, h1, h2, h3⟩ := hi.dropped c h
    exact ⟨p, k, hle.at h1, by rw [call_keyAt (At.lt h1)]; exact h2, h3⟩
  · intro c vs h
    exact hle.allReady (hi.consumed c vs h)
  · intro c h
    exact hle.handler (hi.handled c h)
  · intro c
    have h1 : tot (tokI c) pool + tot (tokW c) s.awaiting + tot (tokE c) s.log =
      if c < s.calls.length then 1 else 0 := hi.tok c
    rw [tot_cons, hx1]
    show _ + tot (tokW c) s.awaiting + tot (tokE c) s.log = if c < (s.calls ++ [r]).length then 1 else 0
    rw [List.length_append, List.length_singleton]
    by_cases h2 : c < s.calls.length
    · rw [if_pos h2] at h1
      rw [if_neg (show s.calls.length ≠ c by omega), if_pos (show c < s.calls.length + 1 by omega)]
      omega
    · rw [if_neg h2] at h1
      by_cases h3 : s.calls.length = c
      · rw [if_pos h3, if_pos (by omega)]; omega
      · rw [if_neg h3, if_neg (by omega)]; omega
  · intro k
    rw [tot_cons, hx2, tot_congr (fun y hy => call_creI (hi.good y hy))]
    have := hi.cre k
    show 0 + _ + tot (creE k) s.log = if s.flag k = true then 1 else 0
    rw [Nat.zero_add]
    exact this
  · intro k c hc hr hf
    rw [tot_cons, hx3, tot_congr (fun y hy => call_regI (hi.good y hy)), Nat.zero_add]
    by_cases hcn : c = s.calls.length
    · subst hcn
      rw [tot_eq_zero (F := regI s k s.calls.length) (fun y hy => no_reg (hi.good y hy))]
      rw [tot_eq_zero (F := regF k s.calls.length), tot_eq_zero (F := regW k s.calls.length)]
      · rintro ⟨k', c', q⟩ hw
        obtain ⟨p, -, hat, -⟩ := hi.awaiting k' c' q hw
        have := hat.lt
        exact if_neg fun h => by
          have h2 : c' = s.calls.length := h.2
          have h3 : c' < s.calls.length := this
          omega
      · rintro ⟨k', c'⟩ hw
        have := handler_lt' (hi.failing k' c' hw)
        exact if_neg fun h => by
          have h2 : c' = s.calls.length := h.2
          have h3 : c' < s.calls.length := this
          omega
    · exact hi.reg k c (by rw [← call_handler (r := r) hcn]; exact hc) hr hf
  · intro c hc
    rw [tot_cons, tot_cons, hx4, hx5, tot_congr (fun y hy => call_losI (hi.good y hy)), Nat.zero_add, Nat.zero_add]
    by_cases hcn : c = s.calls.length
    · subst hcn
      rw [tot_eq_zero (F := losI s s.calls.length) (fun y hy => no_los (hi.good y hy))]
      rw [tot_eq_zero (F := hanI s.calls.length) (fun y hy => no_han (hi.good y hy))]
      rw [tot_eq_zero (F := hanE s.calls.length), tot_eq_zero (F := losE s.calls.length)]
      · intro e he
        cases e with
        | dropped c' =>
          obtain ⟨p, k, h1, -⟩ := hi.dropped c' he
          have := h1.lt
          exact if_neg fun h => by
            have h3 : c' < s.calls.length := this
            omega
        | _ => rfl
      · intro e he
        cases e with
        | handled c' =>
          have := handler_lt' (hi.handled c' he)
          exact if_neg fun h => by
            have h3 : c' < s.calls.length := this
            omega
        | _ => rfl
    · exact hi.han c (by rw [← call_handler (r := r) hcn]; exact hc)

end Call

theorem inv {s : State K V} (h : Reachable s) : Inv s := by
  induction h with
  | start => exact inv_start
  | step _ hs ih =>
    cases hs with
    | op s pre post x => exact inv_op ih
    | setter s pool k v _ => exact inv_setter ih
    | fatal s pool k _ => exact inv_fatal ih
    | call s pool r _ => exact inv_call ih

end Verif.Async
