import Verif.Remote.Stream

/-!
# C83: transferring blobs by byte streams
-/

namespace Verif.Remote.Stream

variable {α δ σ : Type}

/-! ## Reading a source chunk by chunk -/

theorem chunks_sound (R : Reader α) (h0 : 0 < R.size) : ∀ (n o : Nat) (l : List (List α)), R.chunks n o = some l →
    o ≤ R.data.length → l.flatten = R.data.drop o ∧ l ≠ [] ∧ (o < R.data.length → [] ∉ l) ∧ (∀ c ∈ l, c.length ≤ R.size) ∧
      ∀ c ∈ l.dropLast, c.length = R.size
  | 0, _, _, h, _ => nomatch h
  | n + 1, o, l, h, ho => by
    unfold Reader.chunks at h
    rw [if_neg (by unfold Reader.stop; omega)] at h
    unfold Reader.chunk at h
    split at h
    · cases h
    · rw [Option.bind_some] at h
      obtain ⟨r, hr, rfl⟩ := Option.map_eq_some_iff.1 h
      unfold Reader.next at hr
      by_cases hn : R.data.length ≤ o + R.size
      · rw [if_pos hn] at hr
        have : r = [] := by
          cases n with
          | zero => cases hr
          | succ n =>
            unfold Reader.chunks at hr
            rw [if_pos rfl] at hr
            exact (Option.some.inj hr).symm
        subst this
        refine ⟨?_, by simp, fun hlt => ?_, by simp; omega, by simp⟩
        · rw [List.flatten_cons, List.flatten_nil, List.append_nil, List.take_of_length_le (by rw [List.length_drop]; omega)]
        · intro hm
          have := congrArg List.length (List.mem_singleton.1 hm)
          rw [List.length_take, List.length_drop, List.length_nil] at this
          omega
      · rw [if_neg hn] at hr
        obtain ⟨h1, h2, h3, h4, h5⟩ := chunks_sound R h0 n (o + R.size) r hr (by omega)
        have hl : ((R.data.drop o).take R.size).length = R.size := by
          rw [List.length_take, List.length_drop]
          omega
        refine ⟨?_, by simp, fun _ hm => ?_, ?_, ?_⟩
        · rw [List.flatten_cons, h1, ← List.drop_drop, List.take_append_drop]
        · rcases List.mem_cons.1 hm with h | h
          · rw [← h, List.length_nil] at hl
            omega
          · exact h3 (by omega) h
        · intro c hc
          rcases List.mem_cons.1 hc with rfl | hc
          · omega
          · exact h4 c hc
        · intro c hc
          rw [List.dropLast_cons_of_ne_nil h2] at hc
          rcases List.mem_cons.1 hc with rfl | hc
          · exact hl
          · exact h5 c hc

theorem chunks_total (R : Reader α) (h0 : 0 < R.size) : ∀ (n o : Nat), R.data.length < n + o →
    (o < R.data.length ∨ o = 0 ∨ o = R.data.length ∧ R.mem = false) → ∃ l, R.chunks (n + 1) o = some l := by
  intro n
  induction n with
  | zero =>
    intro o h1 h2
    omega
  | succ n ih =>
    intro o h1 h2
    unfold Reader.chunks
    rw [if_neg (by unfold Reader.stop; omega)]
    unfold Reader.chunk
    rw [if_neg (by
      rintro ⟨h3, h4, h5⟩
      have : 0 < R.data.length := List.length_pos_iff.2 h4
      rcases h2 with h | h | h
      · omega
      · omega
      · rw [h.2] at h3
        cases h3), Option.bind_some]
    unfold Reader.next
    by_cases hn : R.data.length ≤ o + R.size
    · rw [if_pos hn]
      unfold Reader.chunks
      rw [if_pos rfl]
      exact ⟨_, rfl⟩
    · rw [if_neg hn]
      obtain ⟨l, hl⟩ := ih (o + R.size) (by omega) (.inl (by omega))
      rw [hl]
      exact ⟨_, rfl⟩

/-! ## Reading from a server -/

theorem serverRead_eq (size : Nat) (h0 : 0 < size) (content : List α) (o : Nat) (ho : o ≤ content.length) :
    ∃ l, serverRead size content o = (l, true) ∧ l.flatten = content.drop o ∧ (o < content.length → [] ∉ l) ∧
      (∀ c ∈ l, c.length ≤ size) ∧ ∀ c ∈ l.dropLast, c.length = size := by
  obtain ⟨l, hl⟩ := chunks_total ⟨size, false, content⟩ h0 (content.length + 1) o (by dsimp only; omega) (by
    dsimp only
    by_cases h : o < content.length
    · exact .inl h
    · exact .inr (.inr ⟨by omega, rfl⟩))
  have hs : Reader.start ⟨size, false, content⟩ o = o := by
    unfold Reader.start Reader.stop
    dsimp only
    omega
  obtain ⟨h1, _, h3, h4, h5⟩ := chunks_sound ⟨size, false, content⟩ h0 _ o l hl ho
  refine ⟨l, ?_, h1, h3, h4, h5⟩
  unfold serverRead
  rw [hs, hl]

theorem dump_flatten : ∀ (l : List (List α)) (ok : Bool), [] ∉ l → dump l ok = (l.flatten, ok)
  | [], _, _ => rfl
  | [] :: _, _, h => absurd (by simp) h
  | (a :: c) :: r, ok, h => by
    rw [dump, dump_flatten r ok fun hr => h (by simp [hr])]
    rfl

theorem flatten_prefix {a b : List (List α)} (h : a <+: b) : a.flatten <+: b.flatten := by
  obtain ⟨t, rfl⟩ := h
  exact ⟨t.flatten, by simp⟩

/-- What the client gets from this server, whether or not the connection breaks. -/
theorem dump_server {size : Nat} (h0 : 0 < size) {content : List α} {got : List (List α)} {ok : Bool}
    (h : Arrives (serverRead size content 0).1 (serverRead size content 0).2 got ok) :
    (dump got ok).1 <+: content ∧ ((dump got ok).2 = true → (dump got ok).1 = content) := by
  obtain ⟨l, hl, h1, h2, _⟩ := serverRead_eq size h0 content 0 (Nat.zero_le _)
  rw [hl] at h
  rw [List.drop_zero] at h1
  by_cases hc : content = []
  · subst hc
    have hd : ∀ (l : List (List α)) ok, l.flatten = [] → (dump l ok).1 = [] := by
      intro l ok hl
      match l with
      | [] => rfl
      | [] :: _ => rfl
      | (a :: c) :: _ => simp at hl
    have : got.flatten = [] := by
      rcases h with ⟨rfl, _⟩ | ⟨h, _⟩
      · exact h1
      · exact List.prefix_nil.1 (h1 ▸ flatten_prefix h)
    rw [hd got ok this]
    exact ⟨List.prefix_rfl, fun _ => rfl⟩
  · have h2 := h2 (List.length_pos_iff.2 hc)
    rcases h with ⟨rfl, rfl⟩ | ⟨h, rfl⟩
    · rw [dump_flatten _ _ h2, h1]
      exact ⟨List.prefix_rfl, fun _ => rfl⟩
    · rw [dump_flatten _ _ fun hm => h2 (h.subset hm)]
      exact ⟨h1 ▸ flatten_prefix h, (nomatch ·)⟩

theorem dump_server_ok {size : Nat} (h0 : 0 < size) (content : List α) :
    dump (serverRead size content 0).1 (serverRead size content 0).2 = (content, true) := by
  obtain ⟨l, hl, -⟩ := serverRead_eq size h0 content 0 (Nat.zero_le _)
  have ha : Arrives (serverRead size content 0).1 (serverRead size content 0).2 (serverRead size content 0).1
    (serverRead size content 0).2 := .inl ⟨rfl, rfl⟩
  have hp := (dump_server h0 ha).2
  rw [hl] at hp ⊢
  have ht : (dump l true).2 = true := by
    clear hp ha hl
    induction l with
    | nil => rfl
    | cons c l ih =>
      cases c with
      | nil => rfl
      | cons a c => exact ih
  exact Prod.ext (hp ht) ht

/-! ## Writing to a server -/

/-- The iterator is where the position is, or at the end. -/
def Conf.Ok (R : Reader α) : Conf σ → Prop
  | .run pos it _ => it = pos ∧ pos ≤ R.data.length ∨ it = R.stop
  | .done _ _ => True

theorem request_data {R : Reader α} {pos it : Nat} {s : σ} {c : List α} (h : Conf.Ok R (.run pos it s)) (hit : it ≠ R.stop)
    (hc : R.chunk it = some c) : it = pos ∧ pos ≤ R.data.length ∧ c = (R.data.drop pos).take R.size := by
  rcases h with ⟨rfl, h⟩ | h
  · unfold Reader.chunk at hc
    split at hc
    · cases hc
    · exact ⟨rfl, h, (Option.some.inj hc).symm⟩
  · exact absurd h hit

theorem Conf.Ok.begin (R : Reader α) (s : σ) : Conf.Ok R (begin R s) :=
  .inl ⟨by unfold Reader.start; omega, Nat.zero_le _⟩

theorem Step.ok {S : Server σ α} {R : Reader α} {a b : Conf σ} (h : Step S R a b) (ha : a.Ok R) : b.Ok R := by
  cases h with
  | failed => trivial
  | broken => trivial
  | finish => trivial
  | @sent pos it _ _ _ hit hc _ =>
    obtain ⟨rfl, h1, rfl⟩ := request_data ha hit hc
    unfold Reader.next
    by_cases hn : R.data.length ≤ it + R.size
    · rw [if_pos hn]
      exact .inr rfl
    · rw [if_neg hn]
      refine .inl ⟨?_, ?_⟩ <;> (rw [List.length_take, List.length_drop]; omega)
  | @resume _ _ _ _ _ n =>
    by_cases hn : n.toNat ≤ R.data.length
    · exact .inl ⟨by unfold Reader.start Reader.stop; omega, hn⟩
    · exact .inr (by unfold Reader.start Reader.stop; omega)

theorem Steps.ok {S : Server σ α} {R : Reader α} {a b : Conf σ} (h : Steps S R a b) (ha : a.Ok R) : b.Ok R := by
  induction h with
  | refl => exact ha
  | step _ hs ih => exact hs.ok ih

/-- The state of the server. -/
def Conf.state : Conf σ → σ
  | .run _ _ s | .done _ s => s

/-! ### Any server that conforms to the protocol -/

/-- A server that conforms to the protocol: a request is either accepted, in whole or in part, in which case its offset is the
size of what has been committed so far; or ignored. A query is answered by at most the size of what has been
committed, and so is the end of the stream. -/
structure Server.Conforms (S : Server σ α) (got : σ → List α) : Prop where
  recv : ∀ s r ok s', S.recv s r ok s' →
    got s' = got s ∨ (r.offset = (got s).length ∧ ∃ d, d <+: r.data ∧ got s' = got s ++ d)
  query : ∀ s n s', S.query s n s' → got s' = got s
  finish : ∀ s n s', S.finish s n s' → got s' = got s ∧ ∀ k, n = some k → k = (got s).length

theorem toInt32_eq {n : Nat} (h : n < 2 ^ 31) : toInt32 n = n := by
  unfold toInt32
  omega

theorem toInt32_lt (n : Nat) : toInt32 n < 2 ^ 31 := by
  unfold toInt32
  omega

theorem prefix_step {R : Reader α} {g d : List α} {pos : Nat} (hg : g <+: R.data) (hl : g.length = pos)
    (hd : d <+: (R.data.drop pos).take R.size) : g ++ d <+: R.data := by
  have hd' := hd.trans (List.take_prefix _ _)
  obtain ⟨t, ht⟩ := hd'
  obtain ⟨u, hu⟩ := hg
  refine ⟨t, ?_⟩
  rw [← hu, ← hl, List.drop_left] at ht
  rw [List.append_assoc, ht, hu]

theorem Step.conforms {S : Server σ α} {got : σ → List α} (hS : S.Conforms got) {R : Reader α} (hR : R.data.length < 2 ^ 31)
    {a b : Conf σ} (h : Step S R a b) (ha : a.Ok R) (hp : got a.state <+: R.data) :
    got b.state <+: R.data ∧ ∀ s, b = .done true s → got s = R.data := by
  have hrecv : ∀ {pos it s c ok s'}, Conf.Ok R (.run pos it s) → it ≠ R.stop → R.chunk it = some c →
      S.recv s (request R pos c) ok s' → got s <+: R.data → got s' <+: R.data := by
    intro pos it s c ok s' ho hit hc hr hp
    obtain ⟨rfl, h1, rfl⟩ := request_data ho hit hc
    rcases hS.recv _ _ _ _ hr with h | ⟨h, d, hd, he⟩
    · rw [h]
      exact hp
    · rw [he]
      have : toInt32 it = it := toInt32_eq (by omega)
      exact prefix_step hp (by have h' : toInt32 it = _ := h; omega) hd
  cases h with
  | failed => exact ⟨hp, by rintro s ⟨⟩⟩
  | sent hit hc hr => exact ⟨hrecv ha hit hc hr hp, by rintro s ⟨⟩⟩
  | broken hit hc hr hq hn =>
    refine ⟨?_, by rintro s ⟨⟩⟩
    rw [Conf.state, hS.query _ _ _ hq]
    exact hrecv ha hit hc hr hp
  | resume hit hc hr hq hn =>
    refine ⟨?_, by rintro s ⟨⟩⟩
    rw [Conf.state, hS.query _ _ _ hq]
    exact hrecv ha hit hc hr hp
  | @finish pos it s n s' hit hf =>
    obtain ⟨h1, h2⟩ := hS.finish _ _ _ hf
    have hp' : got s' <+: R.data := by rw [h1]; exact hp
    refine ⟨hp', fun s0 he => ?_⟩
    injection he with he1 he2
    subst he2
    have hk := h2 _ (of_decide_eq_true he1)
    exact hp'.eq_of_length_le (by rw [h1]; omega)

theorem Steps.conforms {S : Server σ α} {got : σ → List α} (hS : S.Conforms got) {R : Reader α} (hR : R.data.length < 2 ^ 31)
    {a b : Conf σ} (h : Steps S R a b) (ha : a.Ok R) (hp : got a.state <+: R.data)
    (hd : ∀ s, a = .done true s → got s = R.data) :
    got b.state <+: R.data ∧ ∀ s, b = .done true s → got s = R.data := by
  induction h with
  | refl => exact ⟨hp, hd⟩
  | step h1 hs ih => exact hs.conforms hS hR (h1.ok ha) ih.1

/-! ### This server -/

/-- As long as the stream is not broken, everything before the position has arrived; all that gets stored is an initial part
of the content. -/
def OwnInv (R : Reader α) (old : List (List α)) : Conf (Own α) → Prop
  | .run pos it s => s.got <+: R.data ∧ (∀ x ∈ s.stored, x ∈ old ∨ x <+: R.data) ∧
      (s.broken = false → s.closed = false → s.got.length = pos) ∧ (it ≠ R.stop → s.closed = false)
  | .done ok s => (∀ x ∈ s.stored, x ∈ old ∨ x <+: R.data) ∧ (ok = true → R.data ∈ s.stored)

theorem store_inv {R : Reader α} {old : List (List α)} {valid : List α → Bool} {s : Own α} (hg : s.got <+: R.data)
    (h : ∀ x ∈ s.stored, x ∈ old ∨ x <+: R.data) : ∀ x ∈ (s.store valid).stored, x ∈ old ∨ x <+: R.data := by
  unfold Own.store
  split
  · intro x hx
    rcases List.mem_cons.1 hx with rfl | hx
    · exact .inr hg
    · exact h x hx
  · exact h

variable [DecidableEq δ] {H : List α → δ} {valid : List α → Bool} {native : Bool} {digest : δ} {size : Nat}

theorem Step.own {R : Reader α} {old : List (List α)} {a b : Conf (Own α)}
    (h : Step (own H valid native digest size) R a b) (ha : a.Ok R) (hi : OwnInv R old a) : OwnInv R old b := by
  cases h with
  | failed => exact ⟨hi.2.1, (nomatch ·)⟩
  | @sent pos it s c s' hit hc hr =>
    obtain ⟨rfl, h1, rfl⟩ := request_data ha hit hc
    obtain ⟨i1, i2, i3, i4⟩ := hi
    rcases hr with ⟨hb, hcl, _, rfl⟩ | ⟨hcl, rfl⟩ | rfl
    · refine ⟨prefix_step i1 (i3 hb hcl) List.prefix_rfl, i2, fun _ _ => ?_, fun hn => ?_⟩
      · dsimp only [request]
        rw [List.length_append, i3 hb hcl]
      · unfold Reader.next at hn
        have hn' : ¬ R.data.length ≤ it + R.size := fun h => hn (if_pos h)
        refine decide_eq_false ?_
        rw [List.length_take, List.length_drop]
        omega
    · exact absurd (i4 hit) (by rw [hcl]; exact Bool.noConfusion)
    · refine ⟨i1, i2, (nomatch ·), fun _ => i4 hit⟩
  | @broken pos it s c s' n s'' hit hc hr hq hn =>
    obtain ⟨i1, i2, i3, i4⟩ := hi
    refine ⟨?_, (nomatch ·)⟩
    have hs' : s'.got <+: R.data ∧ ∀ x ∈ s'.stored, x ∈ old ∨ x <+: R.data := by
      rcases hr with ⟨_, _, h, _⟩ | ⟨_, rfl⟩ | rfl
      · cases h
      · exact ⟨i1, i2⟩
      · exact ⟨i1, i2⟩
    rcases hq.2 with rfl | rfl
    · exact hs'.2
    · exact store_inv hs'.1 hs'.2
  | resume hit hc hr hq hn =>
    have := hq.1
    omega
  | @finish pos it s n s' hit hf =>
    obtain ⟨i1, i2, i3, i4⟩ := hi
    rcases hf with ⟨hb, rfl, hn⟩ | ⟨rfl, h⟩
    · refine ⟨store_inv i1 i2, fun hd => ?_⟩
      have hd := of_decide_eq_true hd
      rw [hd] at hn
      split at hn
      · next hv =>
        have hlen := Option.some.inj hn
        have : s.got = R.data := i1.eq_of_length_le (by omega)
        unfold Own.store
        rw [if_pos hv.1, this]
        simp
      · cases hn
    · refine ⟨?_, fun hd => absurd (of_decide_eq_true hd) (by simp)⟩
      rcases h with rfl | rfl
      · exact i2
      · exact store_inv i1 i2

theorem Steps.own {R : Reader α} {old : List (List α)} {a b : Conf (Own α)}
    (h : Steps (own H valid native digest size) R a b) (ha : a.Ok R) (hi : OwnInv R old a) : OwnInv R old b := by
  induction h with
  | refl => exact hi
  | step h1 hs ih => exact hs.own (h1.ok ha) ih

/-- A step of the loop makes progress, if queries are answered by 0. -/
def Conf.measure (R : Reader α) : Conf σ → Nat
  | .run _ it _ => R.stop - it + 1
  | .done _ _ => 0

theorem Step.measure {S : Server σ α} (hq : ∀ s n s', S.query s n s' → n ≤ 0) {R : Reader α} (h0 : 0 < R.size) {a b : Conf σ}
    (h : Step S R a b) (ha : a.Ok R) : b.measure R < a.measure R := by
  cases h with
  | failed => exact Nat.succ_pos _
  | broken => exact Nat.succ_pos _
  | finish => exact Nat.succ_pos _
  | sent hit hc _ =>
    obtain ⟨rfl, h1, _⟩ := request_data ha hit hc
    unfold Conf.measure Reader.next Reader.stop
    dsimp only
    split <;> omega
  | resume _ _ _ h hn => exact absurd (hq _ _ _ h) (by omega)

/-- Runs with the number of their steps. -/
inductive Run (S : Server σ α) (R : Reader α) : Nat → Conf σ → Conf σ → Prop
  | refl {c} : Run S R 0 c c
  | step {n a b c} : Run S R n a b → Step S R b c → Run S R (n + 1) a c

omit [DecidableEq δ] in
theorem Run.steps {S : Server σ α} {R : Reader α} {n : Nat} {a b : Conf σ} (h : Run S R n a b) : Steps S R a b := by
  induction h with
  | refl => exact .refl
  | step _ hs ih => exact .step ih hs

theorem own_possible (R : Reader α) (h0 : 0 < R.size) (hd : valid R.data = true ∧ H R.data = digest ∧ R.data.length = size)
    (old : List (List α)) : ∀ (n pos : Nat), R.data.length ≤ n + pos → pos < R.data.length ∨ pos = 0 →
      Steps (own H valid native digest size) R (begin R ⟨[], false, false, old⟩)
        (.run pos pos ⟨R.data.take pos, false, false, old⟩) →
      Steps (own H valid native digest size) R (begin R ⟨[], false, false, old⟩)
        (.done true ⟨R.data, false, true, R.data :: old⟩) := by
  have hlast : ∀ pos, R.data.length ≤ pos + R.size → pos < R.data.length ∨ pos = 0 →
      Steps (own H valid native digest size) R (begin R ⟨[], false, false, old⟩)
        (.run pos pos ⟨R.data.take pos, false, false, old⟩) →
      Steps (own H valid native digest size) R (begin R ⟨[], false, false, old⟩)
        (.done true ⟨R.data, false, true, R.data :: old⟩) := by
    intro pos hn hp h
    have hc : R.chunk pos = some ((R.data.drop pos).take R.size) := if_neg fun hx => by
      have : 0 < R.data.length := List.length_pos_iff.2 hx.2.1
      omega
    have hall : (R.data.drop pos).take R.size = R.data.drop pos :=
      List.take_of_length_le (by rw [List.length_drop]; omega)
    rw [hall] at hc
    have h1 := h.step (.sent (by unfold Reader.stop; omega) hc (.inl ⟨rfl, rfl, rfl, rfl⟩))
    have hnext : R.next pos = R.stop := if_pos hn
    dsimp only [request] at h1
    have hfin : decide (R.data.length ≤ pos + (R.data.drop pos).length) = true :=
      decide_eq_true (by rw [List.length_drop]; omega)
    rw [hnext, hfin, List.take_append_drop] at h1
    have h2 := h1.step (.finish rfl (.inl ⟨rfl, rfl, rfl⟩))
    rw [if_pos ⟨hd.1, hd.2.1, .inr hd.2.2⟩] at h2
    unfold Own.store at h2
    dsimp only at h2
    rw [if_pos hd.1] at h2
    simpa using h2
  intro n
  induction n with
  | zero =>
    intro pos hl hp h
    exact hlast pos (by omega) hp h
  | succ n ih =>
    intro pos hl hp h
    by_cases hn : R.data.length ≤ pos + R.size
    · exact hlast pos hn hp h
    · refine ih (pos + R.size) (by omega) (.inl (by omega)) ?_
      have hc : R.chunk pos = some ((R.data.drop pos).take R.size) := if_neg fun hx => by
        have : 0 < R.data.length := List.length_pos_iff.2 hx.2.1
        omega
      have hlen : ((R.data.drop pos).take R.size).length = R.size := by
        rw [List.length_take, List.length_drop]
        omega
      have h1 := h.step (.sent (by unfold Reader.stop; omega) hc (.inl ⟨rfl, rfl, rfl, rfl⟩))
      have hnext : R.next pos = pos + R.size := if_neg hn
      dsimp only [request] at h1
      rw [hnext, hlen, show decide (R.data.length ≤ pos + R.size) = false from decide_eq_false hn, ← List.take_add] at h1
      exact h1

/-! ## Properties -/

/-- **C83.** From every place of a source, in memory or in a file, the chunks give everything that follows. There is always at
least one, none is empty but for an empty source, and all but the last have the given size. -/
theorem C83_chunks (R : Reader α) (h0 : 0 < R.size) {o : Nat} (ho : o < R.data.length ∨ o = 0) :
    ∃ l, R.chunks (R.data.length + 2) (R.start o) = some l ∧ l.flatten = R.data.drop o ∧ l ≠ [] ∧
      (R.data ≠ [] → [] ∉ l) ∧ (∀ c ∈ l, c.length ≤ R.size) ∧ ∀ c ∈ l.dropLast, c.length = R.size := by
  have hs : R.start o = o := by
    unfold Reader.start Reader.stop
    omega
  rw [hs]
  obtain ⟨l, hl⟩ := chunks_total R h0 (R.data.length + 1) o (by omega) (ho.imp id .inl)
  obtain ⟨h1, h2, h3, h4, h5⟩ := chunks_sound R h0 _ o l hl (by omega)
  refine ⟨l, hl, h1, h2, fun hne => h3 ?_, h4, h5⟩
  have : 0 < R.data.length := List.length_pos_iff.2 hne
  omega

omit [DecidableEq δ] in
/-- **C83.** For every offset up to the size of the object, the server sends what follows. -/
theorem C83_server_read {size : Nat} (h0 : 0 < size) (content : List α) {o : Nat} (ho : o ≤ content.length) :
    ((serverRead size content o).1.flatten = content.drop o) ∧ (serverRead size content o).2 = true ∧
    ∀ c ∈ (serverRead size content o).1, c.length ≤ size := by
  obtain ⟨l, hl, h1, _, h3, _⟩ := serverRead_eq size h0 content o ho
  rw [hl]
  exact ⟨h1, rfl, h3⟩

/-- **C83.** Whatever the connection does, the client reads from this server the content asked for, or nothing; if the
connection does not break, it gets the content. -/
theorem C83_read {size : Nat} (h0 : 0 < size) {content : List α} {got : List (List α)} {ok : Bool}
    (h : Arrives (serverRead size content 0).1 (serverRead size content 0).2 got ok) :
    (∀ d, clientRead H digest got ok = some d → d = content) ∧
    (clientRead H (H content) (serverRead size content 0).1 (serverRead size content 0).2 = some content) := by
  constructor
  · intro d hd
    have := (dump_server h0 h).2
    unfold clientRead at hd
    split at hd
    · next d' he =>
      split at hd
      · cases hd
        rw [he] at this
        exact this rfl
      · cases hd
    · cases hd
  · unfold clientRead
    rw [dump_server_ok h0]
    exact if_pos rfl

/-- **C83.** Whatever a server sends, what the client takes for the content has the digest that was asked for. -/
theorem C83_read_any {got : List (List α)} {ok : Bool} {d : List α} (h : clientRead H digest got ok = some d) :
    H d = digest := by
  unfold clientRead at h
  split at h
  · split at h
    · next h' => cases h; exact h'
    · cases h
  · cases h

omit [DecidableEq δ] in
/-- **C83.** If a blob is dumped from this server, or any other one that sends no empty responses, only a first part of the
content is passed on, and all of it if success is reported. What is missing: servers that send empty responses (V58). -/
theorem C83_dump_partial {size : Nat} (h0 : 0 < size) {content : List α} {sent : List (List α)} {status : Bool}
    (hs : (sent, status) = serverRead size content 0 ∨ [] ∉ sent ∧ (sent.flatten <+: content) ∧ (status = true → sent.flatten = content))
    {got : List (List α)} {ok : Bool} (h : Arrives sent status got ok) :
    (dump got ok).1 <+: content ∧ ((dump got ok).2 = true → (dump got ok).1 = content) := by
  rcases hs with hs | ⟨h1, h2, h3⟩
  · refine dump_server h0 ?_
    rw [← hs]
    exact h
  · rcases h with ⟨rfl, rfl⟩ | ⟨h, rfl⟩
    · rw [dump_flatten _ _ h1]
      exact ⟨h2, h3⟩
    · rw [dump_flatten _ _ fun hm => h1 (h.subset hm)]
      exact ⟨(flatten_prefix h).trans h2, (nomatch ·)⟩

omit [DecidableEq δ] in
/-- **C83.** With every server that conforms to the protocol, however often the stream breaks and is resumed: what the
server has committed is always a first part of the content, and all of it if success is reported. What is missing:
blobs of 2 GiB and more (V57). -/
theorem C83_write_partial {S : Server σ α} {got : σ → List α} (hS : S.Conforms got) {R : Reader α}
    (hR : R.data.length < 2 ^ 31) {s : σ} (hp : got s <+: R.data) {b : Conf σ} (h : Steps S R (begin R s) b) :
    got b.state <+: R.data ∧ ∀ s', b = .done true s' → got s' = R.data :=
  h.conforms hS hR (.begin R s) hp (by rintro s ⟨⟩)

/-- **C83.** With this server, for blobs of any size: if success is reported, the content has been stored; whatever happens,
nothing else is stored but first parts of it. -/
theorem C83_write_own {R : Reader α} {old : List (List α)} {b : Conf (Own α)}
    (h : Steps (own H valid native digest size) R (begin R ⟨[], false, false, old⟩) b) :
    (∀ ok s, b = .done ok s → ∀ x ∈ s.stored, x ∈ old ∨ x <+: R.data) ∧ ∀ s, b = .done true s → R.data ∈ s.stored := by
  have hi : OwnInv R old (begin R ⟨[], false, false, old⟩) :=
    ⟨List.nil_prefix, fun x hx => .inl hx, fun _ _ => rfl, fun _ => rfl⟩
  have hb := h.own (.begin R _) hi
  refine ⟨?_, ?_⟩
  · rintro ok s rfl
    exact hb.1
  · rintro s rfl
    exact hb.2 rfl

/-- **C83.** With this server, every blob can be written, and no run goes on for ever. -/
theorem C83_write_ends {R : Reader α} (h0 : 0 < R.size) (old : List (List α)) :
    (valid R.data = true → Steps (own H valid native (H R.data) R.data.length) R (begin R ⟨[], false, false, old⟩)
      (.done true ⟨R.data, false, true, R.data :: old⟩)) ∧
    ∀ n b, Run (own H valid native digest size) R n (begin R ⟨[], false, false, old⟩) b → n ≤ R.data.length + 2 := by
  constructor
  · intro hv
    refine own_possible R h0 ⟨hv, rfl, rfl⟩ old R.data.length 0 (by omega) (.inr rfl) ?_
    have : R.start 0 = 0 := by
      unfold Reader.start
      omega
    rw [List.take_zero]
    unfold begin
    rw [this]
    exact .refl
  · intro n b h
    have key : ∀ n a b, Run (own H valid native digest size) R n a b → a.Ok R → n + b.measure R ≤ a.measure R := by
      intro n a b h ha
      induction h with
      | refl => omega
      | step h1 hs ih =>
        have := hs.measure (fun _ _ _ hq => by rw [hq.1]; exact Int.le_refl 0) h0 (h1.steps.ok ha)
        have := ih ha
        omega
    have := key n _ b h (.begin R _)
    unfold begin at this
    simp only [Conf.measure, Reader.start, Reader.stop] at this
    omega

end Verif.Remote.Stream
