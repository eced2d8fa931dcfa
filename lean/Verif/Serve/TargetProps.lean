import Verif.Serve.TargetLemmas

/-!
# Properties of export targets built on request

C102: what a client gets from the serve endpoint for an export target is what it would have built itself.
-/

namespace Verif.Serve

open Verif

set_option linter.unusedSectionVars false

variable {S K V O : Type} [DecidableEq S] [DecidableEq K] [DecidableEq O]

theorem deliver_tc {B : Builds S K V O} {c : Surrounding K} {w : Endpoint S K V O} {e : Entry K V} :
    (deliver B c w e).2.tc = w.tc ∧ (deliver B c w e).2.own = w.own ∧ (deliver B c w e).2.cas = w.cas := by
  unfold deliver
  split <;> exact ⟨rfl, rfl, rfl⟩

theorem deliver_value {B : Builds S K V O} {c : Surrounding K} {w : Endpoint S K V O} {e e' : Entry K V}
    (h : (deliver B c w e).1 = .value e') :
    e' = e ∧ c.up = true ∧ (∀ o ∈ B.objects e.value e.implied, o ∈ w.remote ∨ o ∈ w.cas) ∧
      (deliver B c w e).2.remote = w.remote ++ B.objects e.value e.implied := by
  unfold deliver at h ⊢
  split at h
  · rename_i hc
    rw [if_pos hc]
    simp only [Bool.and_eq_true, List.all_eq_true, Bool.or_eq_true, decide_eq_true_eq] at hc
    cases h
    exact ⟨rfl, hc.1, hc.2, rfl⟩
  · cases h

theorem deliver_ok {B : Builds S K V O} {c : Surrounding K} {w : Endpoint S K V O} {e : Entry K V} (hu : c.up = true)
    (hs : ∀ o ∈ B.objects e.value e.implied, o ∈ w.remote ∨ o ∈ w.cas) : (deliver B c w e).1 = .value e := by
  unfold deliver
  rw [if_pos]
  simp only [Bool.and_eq_true, List.all_eq_true, Bool.or_eq_true, decide_eq_true_eq]
  exact ⟨hu, hs⟩

/-- Every step of handling a request leaves the target caches alone, or writes what was analysed. -/
theorem serveTarget_tc (B : Builds S K V O) (c : Surrounding K) (fuel : Nat) (q : S) (k : K) (w : Endpoint S K V O) :
    ((serveTarget B c fuel q k w).2.tc = w.tc ∧ (serveTarget B c fuel q k w).2.own = w.own ∧
      (serveTarget B c fuel q k w).2.cas = w.cas) ∨
    ∃ r, w.tc q k = none ∧ analyse B q (w.tc w.own) fuel k = some r ∧
      (serveTarget B c fuel q k w).2.tc = (write B q r.2 w).tc ∧ (serveTarget B c fuel q k w).2.own = w.own ∧
      (serveTarget B c fuel q k w).2.cas = (write B q r.2 w).cas := by
  unfold serveTarget
  split
  · exact .inl deliver_tc
  · rename_i hk
    split
    · exact .inl ⟨rfl, rfl, rfl⟩
    · exact .inl ⟨rfl, rfl, rfl⟩
    · split
      · exact .inl ⟨rfl, rfl, rfl⟩
      · rename_i r hr
        by_cases hs : c.sync = true
        · simp only [hs, if_true]
          right
          refine ⟨r, hk, hr, ?_⟩
          split
          · obtain ⟨h1, h2, h3⟩ := deliver_tc (B := B) (c := c) (w := write B q r.2 w) (e := ‹_›)
            exact ⟨h1, h2, h3⟩
          · exact ⟨rfl, rfl, rfl⟩
        · simp only [Bool.not_eq_true] at hs
          simp only [hs, Bool.false_eq_true, if_false]
          left
          split
          · exact deliver_tc
          · exact ⟨rfl, rfl, rfl⟩

/-- What is in the target cache after writing. -/
theorem write_tc {B : Builds S K V O} {q : S} {new : List (K × Entry K V)} {w : Endpoint S K V O} {s : S} {k : K}
    {e : Entry K V} (h : (write B q new w).tc s k = some e) :
    w.tc s k = some e ∨ (s = q ∧ (k, e) ∈ new ∧ storable (w.tc q) new e = true) := by
  simp only [write] at h
  split at h
  · rename_i hs
    subst hs
    split at h
    · rename_i e' he'
      split at h
      · cases h
        exact .inr ⟨rfl, newEntry_mem he', ‹_›⟩
      · exact .inl h
    · exact .inl h
  · exact .inl h

theorem write_keeps {B : Builds S K V O} {q : S} {new : List (K × Entry K V)} {w : Endpoint S K V O} {s : S} {k : K}
    {e : Entry K V} (h : w.tc s k = some e) : ∃ e', (write B q new w).tc s k = some e' := by
  simp only [write]
  split
  · rename_i hs
    subst hs
    split
    · split
      · exact ⟨_, rfl⟩
      · exact ⟨_, h⟩
    · exact ⟨_, h⟩
  · exact ⟨_, h⟩

theorem right_needs {B : Builds S K V O} {q : S} {k : K} {w : Endpoint S K V O} (hr : Right B w) (hf : Fits B w q k) :
    ∀ i e, Needs B k i → w.tc w.own i = some e → Built B q i e := by
  intro i e hn h
  rcases hf with rfl | hf
  · exact hr _ _ _ h
  · rw [hf i hn] at h
    cases h

/-! ## The endpoint -/

/-- C102, invariants: no request can damage the target caches, whatever its outcome is.  Missing for the full claim: requests for
other execution properties than those of the endpoint, if it has needed targets for its own (C102_violation_mixed). -/
theorem C102_kept_partial {B : Builds S K V O} {c : Surrounding K} {fuel : Nat} {q : S} {k : K} {w : Endpoint S K V O}
    (hr : Right B w) (hc : Closed w) (hs : Stored B w) (hf : Fits B w q k) :
    Right B (serveTarget B c fuel q k w).2 ∧ Closed (serveTarget B c fuel q k w).2 ∧
      Stored B (serveTarget B c fuel q k w).2 := by
  rcases serveTarget_tc B c fuel q k w with ⟨h1, _, h3⟩ | ⟨r, hk, ha, h1, _, h3⟩
  · refine ⟨?_, ?_, ?_⟩
    · unfold Right; rw [h1]; exact hr
    · unfold Closed; rw [h1]; exact hc
    · unfold Stored; rw [h1, h3]; exact hs
  · have h4 := analyse_right (right_needs hr hf) ha
    refine ⟨?_, ?_, ?_⟩
    · intro s i e he
      rw [h1] at he
      rcases write_tc he with he | ⟨rfl, he, _⟩
      · exact hr _ _ _ he
      · exact h4.2 _ he
    · intro s i e he i' hi'
      rw [h1] at he ⊢
      rcases write_tc he with he | ⟨rfl, he, hst⟩
      · obtain ⟨e', he'⟩ := hc _ _ _ he i' hi'
        exact write_keeps he'
      · simp only [storable, List.all_eq_true, Bool.or_eq_true, Option.isSome_iff_exists] at hst
        rcases hst i' hi' with ⟨e', he'⟩ | ⟨e', he'⟩
        · refine ⟨e', ?_⟩
          simp only [write, if_true, he', storable_all hc hf ha (newEntry_mem he')]
        · exact write_keeps he'
    · intro s i e he o ho
      rw [h1] at he
      rw [h3]
      simp only [write]
      rw [List.mem_append]
      rcases write_tc he with he | ⟨rfl, he, hst⟩
      · exact .inl (hs _ _ _ he o ho)
      · refine .inr (List.mem_flatMap.mpr ⟨_, he, ?_⟩)
        simp only [hst, if_true]
        exact ho

/-- A value returned is the one in the target cache of the client's shard. -/
theorem serveTarget_value {B : Builds S K V O} {c : Surrounding K} {fuel : Nat} {q : S} {k : K} {w : Endpoint S K V O}
    {e : Entry K V} (h : (serveTarget B c fuel q k w).1 = .value e) :
    (serveTarget B c fuel q k w).2.tc q k = some e ∧ c.up = true ∧
      ∀ o ∈ B.objects e.value e.implied, o ∈ (serveTarget B c fuel q k w).2.remote := by
  have hd : ∀ w' e', w'.tc q k = some e' → (deliver B c w' e').1 = .value e →
      (deliver B c w' e').2.tc q k = some e ∧ c.up = true ∧
        ∀ o ∈ B.objects e.value e.implied, o ∈ (deliver B c w' e').2.remote := by
    intro w' e' hk hv
    obtain ⟨rfl, hu, _, hrm⟩ := deliver_value hv
    rw [deliver_tc.1, hrm]
    exact ⟨hk, hu, fun o ho => List.mem_append.mpr (.inr ho)⟩
  generalize hx : serveTarget B c fuel q k w = x at h ⊢
  unfold serveTarget at hx
  split at hx
  · subst hx
    exact hd w _ ‹_› h
  · split at hx
    · subst hx; cases h
    · subst hx; cases h
    · split at hx
      · subst hx
        simp only at h
        split at h <;> cases h
      · dsimp only at hx
        split at hx
        · rename_i he'
          subst hx
          exact hd _ _ he' h
        · subst hx; cases h

/-- C102, soundness: an entry returned is what the client would get without any cache.  Missing for the full claim: as for C102_kept_partial. -/
theorem C102_value_partial {B : Builds S K V O} {c : Surrounding K} {fuel : Nat} {q : S} {k : K} {w : Endpoint S K V O}
    {e : Entry K V} (hr : Right B w) (hc : Closed w) (hs : Stored B w) (hf : Fits B w q k)
    (h : (serveTarget B c fuel q k w).1 = .value e) : Built B q k e :=
  (C102_kept_partial hr hc hs hf).1 _ _ _ (serveTarget_value h).1

/-- C102: if an entry is returned, then its blob and all the artifacts it mentions are at the remote-execution endpoint; nothing is
ever removed there. -/
theorem C102_available {B : Builds S K V O} {c : Surrounding K} {fuel : Nat} {q : S} {k : K} {w : Endpoint S K V O} :
    (∀ e, (serveTarget B c fuel q k w).1 = .value e →
      ∀ o ∈ B.objects e.value e.implied, o ∈ (serveTarget B c fuel q k w).2.remote) ∧
    ∀ o ∈ w.remote, o ∈ (serveTarget B c fuel q k w).2.remote := by
  refine ⟨fun e h => (serveTarget_value h).2.2, fun o ho => ?_⟩
  have hd : ∀ (w' : Endpoint S K V O) e', w'.remote = w.remote → o ∈ (deliver B c w' e').2.remote := by
    intro w' e' hw
    unfold deliver
    split
    · exact List.mem_append.mpr (.inl (hw ▸ ho))
    · exact hw ▸ ho
  have hw : ∀ new, (if c.sync then write B q new w else w).remote = w.remote := by
    intro new
    by_cases hs : c.sync = true
    · rw [if_pos hs]; rfl
    · rw [if_neg hs]
  unfold serveTarget
  split
  · exact hd w _ rfl
  · split
    · exact ho
    · exact ho
    · split
      · exact ho
      · dsimp only
        split
        · exact hd _ _ (hw _)
        · exact (hw _).symm ▸ ho

/-- C102: an endpoint that knows the target, can reach the remote-execution endpoint and writes its caches returns
an entry if and only if the target can be built, and then the one built.  Missing for the full claim: as for C102_kept_partial, and
entries not written (C102_violation_disabled). -/
theorem C102_served_partial {B : Builds S K V O} {c : Surrounding K} {q : S} {k : K} {w : Endpoint S K V O}
    (hr : Right B w) (hc : Closed w) (hs : Stored B w) (hf : Fits B w q k) (hp : c.prepare k = .go ())
    (hu : c.up = true) (hy : c.sync = true) (e : Entry K V) :
    (∃ n, ∀ fuel, n ≤ fuel → (serveTarget B c fuel q k w).1 = .value e) ↔ Built B q k e := by
  constructor
  · rintro ⟨n, h⟩
    exact C102_value_partial hr hc hs hf (h n (Nat.le_refl n))
  · intro hb
    obtain ⟨n, hn⟩ := id hb
    refine ⟨n, fun fuel hl => ?_⟩
    cases hk : w.tc q k with
    | some e' =>
      simp only [serveTarget, hk]
      cases built_unique (hr _ _ _ hk) hb
      exact deliver_ok hu fun o ho => .inr (hs _ _ _ hk o ho)
    | none =>
      obtain ⟨new, ha⟩ := analyse_complete (read := w.tc w.own) (right_needs hr hf) (builtN_mono hl hn)
      simp only [serveTarget, hk, hp, ha, hy, if_true]
      have hown : w.tc w.own k = none := by
        rcases hf with rfl | hf
        · exact hk
        · exact hf k (.refl k)
      have hself := analyse_self hown ha
      obtain ⟨e', he'⟩ := newEntry_isSome hself
      have hm := newEntry_mem he'
      have he : e' = e := built_unique ((analyse_right (right_needs hr hf) ha).2 _ hm) hb
      subst he
      have hst := storable_all hc hf ha hm
      have hw : (write B q new w).tc q k = some e' := by
        simp only [write, if_true, he']
        rw [if_pos hst]
      simp only [hw]
      refine deliver_ok hu fun o ho => .inr ?_
      simp only [write]
      refine List.mem_append.mpr (.inr (List.mem_flatMap.mpr ⟨_, hm, ?_⟩))
      rw [if_pos hst]
      exact ho

/-- C102: once an entry was returned, the same request is answered in the same way, without preparing or building anything, and also if the
caches are no longer written. -/
theorem C102_again {B : Builds S K V O} {c c' : Surrounding K} {fuel fuel' : Nat} {q : S} {k : K} {w : Endpoint S K V O}
    {e : Entry K V} (h : (serveTarget B c fuel q k w).1 = .value e) (hu : c'.up = true) :
    (serveTarget B c' fuel' q k (serveTarget B c fuel q k w).2).1 = .value e := by
  obtain ⟨h1, _, h3⟩ := serveTarget_value h
  generalize hw : (serveTarget B c fuel q k w).2 = w' at h1 h3
  simp only [serveTarget, h1]
  exact deliver_ok hu fun o ho => .inl (h3 o ho)

/-- C102, histories: an endpoint that starts with empty target caches, and is only asked for its own execution properties, or only
for other ones, returns only what the clients would get without any cache.  Missing for the full claim: mixed requests. -/
theorem C102_history_partial {B : Builds S K V O} {reqs : List (Request S K)} {w : Endpoint S K V O}
    (h0 : ∀ s k, w.tc s k = none)
    (hq : (∀ r ∈ reqs, r.shard = w.own) ∨ ∀ r ∈ reqs, r.shard ≠ w.own)
    {i : Nat} {r : Request S K} {e : Entry K V} (hi : reqs[i]? = some r)
    (he : (serveAll B reqs w).1[i]? = some (.value e)) : Built B r.shard r.key e := by
  have hmain : ∀ (reqs : List (Request S K)) (w : Endpoint S K V O) (i : Nat),
      Right B w → Closed w → Stored B w →
      ((∀ r ∈ reqs, r.shard = w.own) ∨ ((∀ r ∈ reqs, r.shard ≠ w.own) ∧ ∀ k, w.tc w.own k = none)) →
      reqs[i]? = some r → (serveAll B reqs w).1[i]? = some (.value e) → Built B r.shard r.key e := by
    intro reqs
    induction reqs with
    | nil => intro w i _ _ _ _ hi; simp at hi
    | cons a rs ih =>
      intro w i hr hc hs hq hi he
      have hf : Fits B w a.shard a.key := by
        rcases hq with hq | ⟨_, hq⟩
        · exact .inl (hq a (by simp))
        · exact .inr fun i _ => hq i
      cases i with
      | zero =>
        simp only [List.getElem?_cons_zero, Option.some.injEq] at hi
        subst hi
        simp only [serveAll, List.getElem?_cons_zero, Option.some.injEq] at he
        exact C102_value_partial hr hc hs hf he
      | succ i =>
        simp only [List.getElem?_cons_succ] at hi
        simp only [serveAll, List.getElem?_cons_succ] at he
        obtain ⟨hr', hc', hs'⟩ := C102_kept_partial (c := a.c) (fuel := a.fuel) hr hc hs hf
        refine ih _ i hr' hc' hs' ?_ hi he
        rcases serveTarget_tc B a.c a.fuel a.shard a.key w with ⟨h1, h2, _⟩ | ⟨r', _, _, h1, h2, _⟩
        · rw [h1, h2]
          rcases hq with hq | ⟨hq, hn⟩
          · exact .inl fun r hr => hq r (by simp [hr])
          · exact .inr ⟨fun r hr => hq r (by simp [hr]), hn⟩
        · rw [h1, h2]
          rcases hq with hq | ⟨hq, hn⟩
          · exact .inl fun r hr => hq r (by simp [hr])
          · refine .inr ⟨fun r hr => hq r (by simp [hr]), fun k => ?_⟩
            have hne := hq a (by simp)
            simp only [write, if_neg (Ne.symm hne)]
            exact hn k
  refine hmain reqs w i ?_ ?_ ?_ ?_ hi he
  · intro s k e h; rw [h0] at h; cases h
  · intro s k e h; rw [h0] at h; cases h
  · intro s k e h; rw [h0] at h; cases h
  · exact hq.imp id fun h => ⟨h, h0 _⟩

/-! ## The client -/

/-- C102: if the entries in its local cache and those it is given are right, then what a client computes is what it would get without a
serve endpoint and without any cache. -/
theorem C102_client {B : Builds S K V O} {q : S} {read : K → Option (Entry K V)} {ask : K → Took K V}
    (hr : ∀ k e, read k = some e → Built B q k e) (ha : ∀ k e, ask k = .entry e → Built B q k e) {n : Nat} {k : K}
    {e : Entry K V} (h : client B q read ask n k = some e) : Built B q k e := by
  induction n generalizing k e with
  | zero => simp [client] at h
  | succ n ih =>
    simp only [client] at h
    split at h
    · cases h; exact hr _ _ ‹_›
    · split at h
      · cases h; exact ha _ _ ‹_›
      · cases h
      · simp only [Option.bind_eq_some_iff, Option.map_eq_some_iff, mapAll_some_iff] at h
        obtain ⟨es, hes, v, hv, rfl⟩ := h
        exact built_of (forall₂_imp_mem hes fun a _ b _ => ih) hv

/-- C102: and asking does not make a build fail, unless the reply is a log or an internal error (or the entry announced cannot be
fetched). -/
theorem C102_client_complete {B : Builds S K V O} {q : S} {read : K → Option (Entry K V)} {ask : K → Took K V}
    (hr : ∀ k e, read k = some e → Built B q k e) (ha : ∀ k e, ask k = .entry e → Built B q k e)
    {k : K} (hn : ∀ i, Needs B k i → ask i ≠ .fatal) {e : Entry K V} (h : Built B q k e) :
    ∃ n, ∀ fuel, n ≤ fuel → client B q read ask fuel k = some e := by
  obtain ⟨n, h⟩ := h
  refine ⟨n, ?_⟩
  induction n generalizing k e with
  | zero => simp [builtN] at h
  | succ n ih =>
    intro fuel hl
    obtain ⟨m, rfl⟩ : ∃ m, fuel = m + 1 := ⟨fuel - 1, by omega⟩
    simp only [client]
    split
    · rename_i hk
      rw [built_unique (hr _ _ hk) ⟨_, h⟩]
    · split
      · rename_i hk
        rw [built_unique (ha _ _ hk) ⟨_, h⟩]
      · exact absurd ‹_› (hn k (.refl k))
      · obtain ⟨es, hes, v, hv, rfl⟩ := builtN_succ.mp h
        simp only [Option.bind_eq_some_iff, Option.map_eq_some_iff, mapAll_some_iff]
        exact ⟨es, forall₂_imp_mem hes fun a ha' b _ hb => ih (fun i hi => hn i (.step ha' hi)) hb m (by omega),
          v, hv, rfl⟩

/-- C102: for a target of an absent repository, the client has an entry only if it is the right one. -/
theorem C102_absent {B : Builds S K V O} {q : S} {read : K → Option (Entry K V)} {ask : K → Took K V}
    (hr : ∀ k e, read k = some e → Built B q k e) (ha : ∀ k e, ask k = .entry e → Built B q k e) {k : K}
    {e : Entry K V} (h : clientAbsent read ask k = some e) : Built B q k e := by
  unfold clientAbsent at h
  split at h
  · cases h; exact hr _ _ ‹_›
  · split at h
    · cases h; exact ha _ _ ‹_›
    · cases h
    · cases h

/-- C102: which replies make the client fail, which are taken, and when it goes on by itself. -/
theorem C102_replies (r : Reply K V) (down : Bool) :
    (took down r = .locally ↔ r = .lost ∨ ∃ c, r = .status c ∧ c ≠ .internal) ∧
    (∀ e, took down r = .entry e ↔ down = true ∧ r = .value e) ∧
    (took down r = .fatal ↔ r = .log ∨ r = .status .internal ∨ down = false ∧ ∃ e, r = .value e) := by
  cases r with
  | value e => cases down <;> simp [took]
  | log => simp [took]
  | status c => cases c <;> simp [took]
  | lost => simp [took]

/-! ## Violations -/

/-- V86: if a target is in the target cache for the properties of the endpoint, but not in that of the client, the endpoint finishes with
an internal error, again and again, and the client's build fails, whatever the client could have built itself. -/
theorem C102_violation_shard {B : Builds S K V O} {c : Surrounding K} {fuel : Nat} {q : S} {k : K}
    {w : Endpoint S K V O} {e : Entry K V} (hq : w.tc q k = none) (ho : w.tc w.own k = some e)
    (hp : c.prepare k = .go ()) (down : Bool) :
    (serveTarget B c (fuel + 1) q k w).1 = .status .internal ∧
    (serveTarget B c (fuel + 1) q k w).2.tc q k = none ∧
    took down (serveTarget B c (fuel + 1) q k w).1 = .fatal := by
  have h1 : (write B q [] w).tc q k = none := by simp [write, newEntry, hq]
  have h2 : serveTarget B c (fuel + 1) q k w =
      (.status .internal, if c.sync then write B q [] w else w) := by
    simp only [serveTarget, hq, hp, analyse_succ_some ho]
    by_cases hs : c.sync = true
    · simp only [hs, if_true, h1]
    · simp only [hs, if_false, Bool.false_eq_true, hq]
  rw [h2]
  refine ⟨rfl, ?_, rfl⟩
  by_cases hs : c.sync = true
  · simp only [hs, if_true, h1]
  · simp only [hs, if_false, Bool.false_eq_true, hq]

/-- V90: an endpoint that does not write its target cache builds a target and then reports an internal error, so that the client's build
fails. -/
theorem C102_violation_disabled {B : Builds S K V O} {c : Surrounding K} {q : S} {k : K}
    {w : Endpoint S K V O} (hq : w.tc q k = none) (hp : c.prepare k = .go ()) (hs : c.sync = false) :
    (∀ fuel e, (serveTarget B c fuel q k w).1 ≠ .value e) ∧
    (∀ e, Right B w → Fits B w q k → Built B q k e →
      ∃ n, ∀ fuel, n ≤ fuel → ∀ down, took down (serveTarget B c fuel q k w).1 = .fatal ∧
        (serveTarget B c fuel q k w).1 = .status .internal) := by
  constructor
  · intro fuel e h
    have h1 := (serveTarget_value h).1
    have h2 : (serveTarget B c fuel q k w).2.tc q k = none := by
      simp only [serveTarget, hq, hp, hs, Bool.false_eq_true, if_false]
      split <;> exact hq
    rw [h2] at h1
    cases h1
  · rintro e hr hf ⟨n, hn⟩
    refine ⟨n, fun fuel hl down => ?_⟩
    obtain ⟨new, ha⟩ := analyse_complete (read := w.tc w.own) (right_needs hr hf) (builtN_mono hl hn)
    simp only [serveTarget, hq, hp, hs, ha, Bool.false_eq_true, if_false]
    exact ⟨rfl, trivial⟩

/-- A library and an application using it; the result records the execution properties used for both. -/
def demoBuilds : Builds Nat Nat (List Nat) Nat where
  deps k := if k = 1 then [0] else []
  make s k vs := if k ≤ 1 then some (vs.flatten ++ [100 * s + k]) else none
  objects v i := v ++ i.map (1000 + ·)

/-- Nothing cached; the endpoint itself uses the execution properties `0`. -/
def demoEmpty : Endpoint Nat Nat (List Nat) Nat where
  own := 0
  tc := fun _ _ => none
  cas := []
  remote := []

/-- Everything works. -/
def demoWorks : Surrounding Nat where
  sync := true
  up := true
  prepare := fun _ => .go ()

/-- V87: requests for the library from a client with properties `5`, then from one with those of the endpoint, then for the application
from the first one: it is given an application with the library built for the other properties, which it would not have built
itself. -/
theorem C102_violation_mixed :
    let reqs : List (Request Nat Nat) := [⟨demoWorks, 9, 5, 0⟩, ⟨demoWorks, 9, 0, 0⟩, ⟨demoWorks, 9, 5, 1⟩]
    (serveAll demoBuilds reqs demoEmpty).1 =
      [.value ⟨[500], [0]⟩, .value ⟨[0], [0]⟩, .value ⟨[0, 501], [1, 0]⟩] ∧
    builtN demoBuilds 5 9 1 = some ⟨[500, 501], [1, 0]⟩ ∧
    ¬ Built demoBuilds 5 1 ⟨[0, 501], [1, 0]⟩ := by
  refine ⟨by decide, by decide, fun h => ?_⟩
  have h1 : Built demoBuilds 5 1 ⟨[500, 501], [1, 0]⟩ := ⟨9, by decide⟩
  exact absurd (built_unique h h1) (by decide)

/-- V86, from nothing: a client with the properties of the endpoint asks for the library; then any request for it, or for the
application using it, from a client with other properties ends with an internal error. -/
theorem C102_violation_shard_reached :
    (serveAll demoBuilds [⟨demoWorks, 9, 0, 0⟩, ⟨demoWorks, 9, 5, 0⟩, ⟨demoWorks, 9, 5, 1⟩] demoEmpty).1 =
      [.value ⟨[0], [0]⟩, .status .internal, .status .internal] ∧
    builtN demoBuilds 5 9 0 = some ⟨[500], [0]⟩ := by decide

/-! ## Examples -/

/-- C102_history_partial, C102_value_partial, C102_available: requests that fit are answered. -/
example : (serveAll demoBuilds [⟨demoWorks, 9, 5, 1⟩, ⟨demoWorks, 9, 7, 0⟩, ⟨demoWorks, 9, 5, 0⟩] demoEmpty).1 =
    [.value ⟨[500, 501], [1, 0]⟩, .value ⟨[700], [0]⟩, .value ⟨[500], [0]⟩] := by decide

/-- The hypotheses of C102_served_partial and of the invariants hold for the state reached by a request. -/
example : let w := (serveTarget demoBuilds demoWorks 9 0 0 demoEmpty).2
    Right demoBuilds w ∧ Closed w ∧ Stored demoBuilds w ∧ Fits demoBuilds w 0 1 ∧
      w.tc 0 0 = some ⟨[0], [0]⟩ ∧ (serveTarget demoBuilds demoWorks 9 0 1 w).1 = .value ⟨[0, 1], [1, 0]⟩ := by
  have h := C102_kept_partial (B := demoBuilds) (c := demoWorks) (fuel := 9) (q := 0) (k := 0) (w := demoEmpty)
    (by intro s k e h; cases h) (by intro s k e h; cases h) (by intro s k e h; cases h) (.inl rfl)
  exact ⟨h.1, h.2.1, h.2.2, .inl rfl, by decide, by decide⟩

/-- A target that cannot be built: the reply is the log, and the client fails. -/
example : (serveTarget demoBuilds demoWorks 9 0 2 demoEmpty).1 = .log ∧
    took true (serveTarget demoBuilds demoWorks 9 0 2 demoEmpty).1 = .fatal := by decide

/-- C102_violation_disabled: nothing written. -/
example : (serveTarget demoBuilds { demoWorks with sync := false } 9 5 1 demoEmpty).1 = .status .internal := by decide

/-- C102_client, C102_client_complete: a client that is given the library, and builds the application itself. -/
example : let ask : Nat → Took Nat (List Nat) := fun k => if k = 0 then .entry ⟨[500], [0]⟩ else .locally
    client demoBuilds 5 (fun _ => none) ask 9 1 = some ⟨[500, 501], [1, 0]⟩ ∧
    (∀ k e, ask k = .entry e → Built demoBuilds 5 k e) ∧ ∀ i, ask i ≠ .fatal := by
  refine ⟨by decide, ?_, ?_⟩
  · intro k e h
    by_cases hk : k = 0
    · subst hk
      cases h
      exact ⟨9, by decide⟩
    · simp [hk] at h
  · intro i
    by_cases hk : i = 0 <;> simp [hk]

end Verif.Serve
