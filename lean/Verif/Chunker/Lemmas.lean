import Verif.Chunker.Spec

namespace Verif.Chunker

theorem fingerprint_succ (P : Params) (data : List UInt8) (i : Nat) (hi : P.min ≤ i)
    (h : i < data.length) :
    fingerprint P data i =
      ((if i = P.min then 0 else fingerprint P data (i - 1)) <<< 1) + P.gear data[i] := by
  unfold fingerprint
  have hlen : i - P.min < (data.drop P.min).length := by rw [List.length_drop]; omega
  have h1 : i + 1 - P.min = (i - P.min) + 1 := by omega
  rw [h1, List.take_succ_eq_append_getElem hlen, List.foldl_append]
  have hget : (data.drop P.min)[i - P.min] = data[i] := by
    rw [List.getElem_drop]
    congr 1
    omega
  rw [hget]
  by_cases he : i = P.min
  · subst he
    simp
  · rw [if_neg he]
    have : i - 1 + 1 - P.min = i - P.min := by omega
    rw [this]
    rfl

/-- Fingerprint before looking at byte `i`. -/
def fpBefore (P : Params) (data : List UInt8) (i : Nat) : UInt64 :=
  if i = P.min then 0 else fingerprint P data (i - 1)

theorem fpBefore_succ (P : Params) (data : List UInt8) (i : Nat) (hi : P.min ≤ i) :
    fpBefore P data (i + 1) = fingerprint P data i := by
  unfold fpBefore
  rw [if_neg (by omega)]
  rfl

/-- One scanning loop, on a window of the buffer holding `data` from `pos` on. -/
theorem scan_spec (P : Params) (mask : UInt64) (buf data : List UInt8) (pos : Nat)
    (hbuf : ∀ i (h : i < data.length), buf[pos + i]? = some data[i]) (k : Nat) :
    ∀ i, P.min ≤ i → i + k ≤ data.length →
    (∃ c fp, scan P.gear mask buf pos k i (fpBefore P data i) = .ok (some c, fp) ∧
        i ≤ c ∧ c < i + k ∧ fingerprint P data c &&& mask = 0 ∧
        ∀ j, i ≤ j → j < c → fingerprint P data j &&& mask ≠ 0) ∨
    (scan P.gear mask buf pos k i (fpBefore P data i) = .ok (none, fpBefore P data (i + k)) ∧
        ∀ j, i ≤ j → j < i + k → fingerprint P data j &&& mask ≠ 0) := by
  induction k with
  | zero =>
    intro i _ _
    right
    exact ⟨rfl, fun j h1 h2 => absurd h2 (by omega)⟩
  | succ k ih =>
    intro i hi hlen
    have hlt : i < data.length := by omega
    have hfp : (fpBefore P data i <<< 1) + P.gear data[i] = fingerprint P data i :=
      (fingerprint_succ P data i hi hlt).symm
    unfold scan
    rw [hbuf i hlt]
    simp only [hfp]
    by_cases hz : fingerprint P data i &&& mask = 0
    · left
      rw [if_pos hz]
      exact ⟨i, _, rfl, Nat.le_refl _, by omega, hz, fun j h1 h2 => absurd h2 (by omega)⟩
    · rw [if_neg hz]
      rw [← fpBefore_succ P data i hi]
      rcases ih (i + 1) (by omega) (by omega) with ⟨c, fp, h1, h2, h3, h4, h5⟩ | ⟨h1, h2⟩
      · left
        refine ⟨c, fp, h1, by omega, by omega, h4, ?_⟩
        intro j hj1 hj2
        by_cases hji : j = i
        · subst hji; exact hz
        · exact h5 j (by omega) hj2
      · right
        have e : i + 1 + k = i + (k + 1) := by omega
        rw [e] at h1
        refine ⟨h1, ?_⟩
        intro j hj1 hj2
        by_cases hji : j = i
        · subst hji; exact hz
        · exact h2 j (by omega) (by omega)

theorem fingerprint_append (P : Params) (a b : List UInt8) (i : Nat) (h : i < a.length) :
    fingerprint P (a ++ b) i = fingerprint P a i := by
  unfold fingerprint
  congr 1
  by_cases hm : P.min ≤ a.length
  · rw [List.drop_append_of_le_length hm, List.take_append_of_le_length]
    rw [List.length_drop]; omega
  · have : i + 1 - P.min = 0 := by omega
    rw [this]; simp

theorem cutAt_append (P : Params) (a b : List UInt8) (i : Nat) (h : i < a.length) :
    CutAt P (a ++ b) i ↔ CutAt P a i := by
  unfold CutAt
  rw [fingerprint_append P a b i h, List.length_append]
  constructor
  · rintro ⟨h1, _, h3, h4⟩; exact ⟨h1, h, h3, h4⟩
  · rintro ⟨h1, _, h3, h4⟩; exact ⟨h1, by omega, h3, h4⟩

/-- The first chunk is decided by a window that is complete or of maximal size. -/
theorem firstChunkLen_append (P : Params) (w r : List UInt8) (len : Nat)
    (hw : r = [] ∨ P.max ≤ w.length) (h : FirstChunkLen P w len) :
    FirstChunkLen P (w ++ r) len := by
  rcases hw with rfl | hw
  · rw [List.append_nil]; exact h
  · obtain ⟨h1, h2⟩ := h
    have hlen : len ≤ w.length ∧ len ≤ P.max := by
      rcases h1 with h1 | h1
      · exact ⟨Nat.le_of_lt h1.2.1, Nat.le_of_lt h1.2.2.1⟩
      · rw [h1]; exact ⟨Nat.min_le_left _ _, Nat.min_le_right _ _⟩
    refine ⟨?_, ?_⟩
    · rcases h1 with h1 | h1
      · left; exact (cutAt_append P w r len h1.2.1).mpr h1
      · right
        rw [h1, List.length_append]
        show min _ _ = min _ _
        omega
    · intro j hj hc
      exact h2 j hj ((cutAt_append P w r j (by omega)).mp hc)

/-- `NextChunkBoundary` never leaves the buffer and finds the first chunk of the window. -/
theorem nextChunkBoundary_spec (P : Params) (h4 : 4 ≤ P.avg) (st : State) (data : List UInt8)
    (hlen : st.size - st.pos = data.length)
    (hbuf : ∀ i (h : i < data.length), st.buf[st.pos + i]? = some data[i]) :
    ∃ off, nextChunkBoundary P st = .ok off ∧ FirstChunkLen P data off ∧
      (data ≠ [] → 0 < off) ∧ off ≤ data.length := by
  have hmin : P.min ≤ P.avg := Nat.div_le_self _ _
  have hmin0 : 0 < P.min := Nat.div_pos h4 (by omega)
  have hmax : P.avg < P.max := by unfold Params.max; omega
  unfold nextChunkBoundary
  rw [hlen]
  simp only
  by_cases h1 : data.length ≤ P.min
  · rw [if_pos h1]
    refine ⟨_, rfl, ⟨Or.inr ?_, ?_⟩, ?_, Nat.le_refl _⟩
    · show _ = min _ _
      omega
    · intro j hj hc
      have := hc.1
      omega
    · intro hne
      exact List.length_pos_iff.mpr hne
  · rw [if_neg h1]
    generalize hn : (if P.max ≤ data.length then P.max else data.length) = n
    generalize hno : (if P.max ≤ data.length then P.avg
      else if data.length ≤ P.avg then data.length else P.avg) = normal
    have e1 : n = min data.length P.max := by
      rw [← hn]; split <;> omega
    have e2 : normal = min n P.avg := by
      rw [← hno, e1]
      split
      · omega
      · split <;> omega
    have hnm : P.min ≤ normal := by omega
    have hnn : normal ≤ n := by omega
    have hnl : n ≤ data.length := by omega
    have hfp0 : (0 : UInt64) = fpBefore P data P.min := by unfold fpBefore; rw [if_pos rfl]
    rw [hfp0]
    have maskS_iff : ∀ j, P.min ≤ j → j < normal →
        (CutAt P data j ↔ fingerprint P data j &&& P.maskS = 0) := by
      intro j hj1 hj2
      unfold CutAt
      rw [if_pos (by omega)]
      constructor
      · rintro ⟨_, _, _, h⟩; exact h
      · intro h; exact ⟨hj1, by omega, by omega, h⟩
    have maskL_iff : ∀ j, normal ≤ j → j < n →
        (CutAt P data j ↔ fingerprint P data j &&& P.maskL = 0) := by
      intro j hj1 hj2
      have : ¬ j < P.avg := by omega
      unfold CutAt
      rw [if_neg this]
      constructor
      · rintro ⟨_, _, _, h⟩; exact h
      · intro h; exact ⟨by omega, by omega, by omega, h⟩
    rcases scan_spec P P.maskS st.buf data st.pos hbuf (normal - P.min) P.min (Nat.le_refl _)
      (by omega) with ⟨c, fp, hs, hc1, hc2, hc3, hc4⟩ | ⟨hs, hc⟩
    · rw [hs]
      refine ⟨c, rfl, ⟨Or.inl ?_, ?_⟩, fun _ => by omega, by omega⟩
      · exact (maskS_iff c hc1 (by omega)).mpr hc3
      · intro j hj hcut
        have hjm := hcut.1
        exact hc4 j hjm hj ((maskS_iff j hjm (by omega)).mp hcut)
    · rw [hs]
      have e3 : Nat.max P.min normal = normal := by show max _ _ = _; omega
      have e4 : P.min + (normal - P.min) = normal := by omega
      simp only [e3, e4]
      rw [e4] at hc
      rcases scan_spec P P.maskL st.buf data st.pos hbuf (n - normal) normal hnm
        (by omega) with ⟨c, fp, hs2, hd1, hd2, hd3, hd4⟩ | ⟨hs2, hd⟩
      · rw [hs2]
        refine ⟨c, rfl, ⟨Or.inl ?_, ?_⟩, fun _ => by omega, by omega⟩
        · exact (maskL_iff c hd1 (by omega)).mpr hd3
        · intro j hj hcut
          have hjm := hcut.1
          by_cases hjn : j < normal
          · exact hc j hjm hjn ((maskS_iff j hjm hjn).mp hcut)
          · exact hd4 j (by omega) hj ((maskL_iff j (by omega) (by omega)).mp hcut)
      · rw [hs2]
        have e5 : Nat.max normal n = n := by show max _ _ = _; omega
        simp only [e5]
        refine ⟨n, rfl, ⟨Or.inr e1, ?_⟩, fun _ => by omega, hnl⟩
        intro j hj hcut
        have hjm := hcut.1
        by_cases hjn : j < normal
        · exact hc j hjm hjn ((maskS_iff j hjm hjn).mp hcut)
        · exact hd j (by omega) (by omega) ((maskL_iff j (by omega) hj).mp hcut)

/-- Unread content of the buffer. -/
def window (st : State) : List UInt8 := (st.buf.drop st.pos).take (st.size - st.pos)

/-- Loop invariant: `s` is the part of the file not yet delivered. -/
structure Inv (P : Params) (st : State) (s : List UInt8) : Prop where
  notBad : st.bad = false
  bufLen : st.buf.length = P.max * 2
  posSize : st.pos ≤ st.size
  sizeBuf : st.size ≤ st.buf.length
  content : s = window st ++ st.rest
  atEof : st.eof = true → st.rest = []
  notEof : st.eof = false → st.size = P.max * 2 ∨ st.size = 0

theorem window_length {P : Params} {st : State} {s : List UInt8} (h : Inv P st s) :
    (window st).length = st.size - st.pos := by
  unfold window
  rw [List.length_take, List.length_drop]
  have := h.posSize
  have := h.sizeBuf
  omega

theorem window_get {P : Params} {st : State} {s : List UInt8} (h : Inv P st s) :
    ∀ i (hi : i < (window st).length), st.buf[st.pos + i]? = some (window st)[i] := by
  intro i hi
  have hl := window_length h
  have h1 := h.sizeBuf
  have h2 := h.posSize
  rw [List.getElem?_eq_getElem (by omega)]
  congr 1
  simp only [window, List.getElem_take, List.getElem_drop]

theorem inv_init (P : Params) (file : List UInt8) : Inv P (init P file) file where
  notBad := rfl
  bufLen := by simp [init]
  posSize := Nat.le_refl _
  sizeBuf := Nat.zero_le _
  content := by simp [init, window]
  atEof := by simp [init]
  notEof := fun _ => Or.inr rfl

theorem deliver_spec {P : Params} (h4 : 4 ≤ P.avg) {st : State} {s : List UInt8}
    (h : Inv P st s) (hw : st.eof = true ∨ P.max ≤ st.size - st.pos) :
    (s = [] ∧ deliver P st = .ok (none, st) ∧ st.pos = st.size ∧ st.eof = true) ∨
    (∃ c s' st', deliver P st = .ok (some c, st') ∧ s = c ++ s' ∧ c ≠ [] ∧
      FirstChunkLen P (c ++ s') c.length ∧ Inv P st' s') := by
  have hl := window_length h
  have hmaxpos : 0 < P.max := by unfold Params.max; omega
  unfold deliver
  by_cases hps : st.pos = st.size
  · left
    rw [if_pos hps]
    have he : st.eof = true := by
      rcases hw with hw | hw
      · exact hw
      · omega
    refine ⟨?_, rfl, hps, he⟩
    rw [h.content, h.atEof he, List.append_nil]
    apply List.eq_nil_of_length_eq_zero
    omega
  · right
    rw [if_neg hps]
    obtain ⟨off, ho, hf, hpos, hle⟩ := nextChunkBoundary_spec P h4 st (window st) hl.symm
      (window_get h)
    have hne : window st ≠ [] := by
      intro he
      rw [he] at hl
      have := h.posSize
      simp at hl
      omega
    rw [ho]
    have hoff := hpos hne
    have hchunk : (st.buf.drop st.pos).take off = (window st).take off := by
      unfold window
      rw [List.take_take]
      congr 1
      omega
    have hclen : ((st.buf.drop st.pos).take off).length = off := by
      rw [hchunk, List.length_take]; omega
    refine ⟨_, (window st).drop off ++ st.rest, _, rfl, ?_, ?_, ?_, ?_⟩
    · rw [hchunk, ← List.append_assoc, List.take_append_drop]
      exact h.content
    · intro he
      rw [he] at hclen
      simp at hclen
      omega
    · rw [hclen, hchunk, ← List.append_assoc, List.take_append_drop]
      apply firstChunkLen_append P _ _ _ _ hf
      rcases hw with hw | hw
      · exact Or.inl (h.atEof hw)
      · right; omega
    · have := h.posSize
      exact {
        notBad := h.notBad
        bufLen := h.bufLen
        posSize := by show st.pos + off ≤ st.size; omega
        sizeBuf := h.sizeBuf
        content := by
          show _ = (st.buf.drop (st.pos + off)).take (st.size - (st.pos + off)) ++ st.rest
          congr 1
          unfold window
          rw [List.drop_take, List.drop_drop]
          congr 1
          omega
        atEof := h.atEof
        notEof := h.notEof }

theorem refill_spec {P : Params} {st : State} {s : List UInt8}
    (h : Inv P st s) (he : st.eof = false) (hr : st.size - st.pos < P.max) :
    (∃ st', refill st true = .ok st' ∧ Inv P st' s ∧
      (st'.eof = true ∨ P.max ≤ st'.size - st'.pos)) ∧
    (∃ st', refill st false = .ok st' ∧ st'.bad = true ∧ st'.eof = false) := by
  have hl := window_length h
  have h1 := h.posSize
  have h2 := h.sizeBuf
  have h3 := h.bufLen
  have hno : ¬ (st.buf.length < st.pos ∨ (0 < st.size - st.pos ∧ st.pos < st.size - st.pos)) := by
    rcases h.notEof he with h5 | h5 <;> omega
  unfold refill
  simp only [if_neg hno]
  constructor
  · rw [if_pos trivial]
    refine ⟨_, rfl, ?_, ?_⟩
    · have hwl : ((st.buf.drop st.pos).take (st.size - st.pos)).length = st.size - st.pos := hl
      have htk : ((st.buf.drop st.pos).take (st.size - st.pos) ++
          st.buf.drop (st.size - st.pos)).take (st.size - st.pos) = window st := by
        rw [List.take_append_of_le_length (by omega)]
        unfold window
        rw [List.take_take, Nat.min_self]
      have hgl : (st.rest.take (st.buf.length - (st.size - st.pos))).length ≤
          st.buf.length - (st.size - st.pos) := by
        rw [List.length_take]; exact Nat.min_le_left _ _
      exact {
        notBad := rfl
        bufLen := by
          show (_ ++ _ ++ _ : List UInt8).length = _
          rw [htk, List.length_append, List.length_append, hl, List.length_drop,
            List.length_append, hwl, List.length_drop]
          omega
        posSize := Nat.zero_le _
        sizeBuf := by
          show (st.rest.take _).length + (st.size - st.pos) ≤ (_ ++ _ ++ _ : List UInt8).length
          rw [htk, List.length_append, List.length_append, hl]
          omega
        content := by
          show s = (List.drop 0 _).take _ ++ st.rest.drop _
          rw [List.drop_zero, htk, h.content]
          have hlen2 : (window st ++ st.rest.take (st.buf.length - (st.size - st.pos))).length =
              (st.rest.take (st.buf.length - (st.size - st.pos))).length + (st.size - st.pos)
                - 0 := by
            rw [List.length_append, hl]
            omega
          rw [List.take_append_of_le_length (Nat.le_of_eq hlen2.symm)]
          rw [List.take_of_length_le (Nat.le_of_eq hlen2), List.append_assoc, List.take_append_drop]
        atEof := by
          show decide _ = true → st.rest.drop _ = []
          rw [decide_eq_true_eq, List.length_take]
          intro hlt
          apply List.drop_eq_nil_of_le
          omega
        notEof := by
          show decide _ = false → _ + _ = _ ∨ _
          rw [decide_eq_false_iff_not]
          intro hlt
          left
          omega }
    · show decide _ = true ∨ P.max ≤ _ + _ - 0
      rw [decide_eq_true_eq]
      by_cases hlt : (st.rest.take (st.buf.length - (st.size - st.pos))).length <
          st.buf.length - (st.size - st.pos)
      · exact Or.inl hlt
      · right; omega
  · rw [if_neg (by simp)]
    exact ⟨_, rfl, by simp, he⟩

theorem nextChunk_spec {P : Params} (h4 : 4 ≤ P.avg) {st : State} {s : List UInt8}
    (h : Inv P st s) (ok : Bool) :
    (∃ st', nextChunk P st ok = .ok (none, st') ∧ finished st' = false ∧ ok = false) ∨
    (∃ st', s = [] ∧ nextChunk P st ok = .ok (none, st') ∧ finished st' = true) ∨
    (∃ c s' st', nextChunk P st ok = .ok (some c, st') ∧ s = c ++ s' ∧ c ≠ [] ∧
      FirstChunkLen P (c ++ s') c.length ∧ Inv P st' s') := by
  unfold nextChunk
  rw [h.notBad]
  simp only [Bool.false_eq_true, if_false]
  rw [if_neg (Nat.not_lt.mpr h.posSize)]
  by_cases hc : st.size - st.pos < P.max ∧ st.eof = false
  · rw [if_pos hc]
    obtain ⟨⟨st1, hr1, hi1, hw1⟩, ⟨st2, hr2, hb2, he2⟩⟩ := refill_spec h hc.2 hc.1
    cases ok with
    | false =>
      left
      rw [hr2]
      simp only [hb2, if_true]
      exact ⟨_, rfl, by simp [finished, he2], trivial⟩
    | true =>
      right
      rw [hr1]
      simp only [hi1.notBad, Bool.false_eq_true, if_false]
      rcases deliver_spec h4 hi1 hw1 with ⟨hs, hd, hp, he⟩ | hd
      · left
        exact ⟨_, hs, hd, by simp [finished, hp, he]⟩
      · right; exact hd
  · rw [if_neg hc]
    right
    have hw : st.eof = true ∨ P.max ≤ st.size - st.pos := by
      by_cases he : st.eof = true
      · exact Or.inl he
      · right
        have : st.eof = false := by simpa using he
        by_contra hlt
        exact hc ⟨by omega, this⟩
    rcases deliver_spec h4 h hw with ⟨hs, hd, hp, he⟩ | hd
    · left
      exact ⟨_, hs, hd, by simp [finished, hp, he]⟩
    · right; exact hd

theorem drain_spec {P : Params} (h4 : 4 ≤ P.avg) (io : Nat → Bool) (fuel : Nat) :
    ∀ (j : Nat) (st : State) (s : List UInt8), Inv P st s → s.length < fuel →
      ∃ cs st', drain P io fuel j st = .done cs st' ∧
        (finished st' = true → Chunking P s cs) ∧
        ((∀ i, io i = true) → finished st' = true) := by
  induction fuel with
  | zero => intro j st s _ h; omega
  | succ fuel ih =>
    intro j st s hinv hlen
    unfold drain
    rcases nextChunk_spec h4 hinv (io j) with ⟨st', hn, hf, hio⟩ | ⟨st', hs, hn, hf⟩ |
      ⟨c, s', st', hn, hs, hne, hfc, hinv'⟩
    · rw [hn]
      refine ⟨_, _, rfl, ?_, ?_⟩
      · intro h; rw [hf] at h; simp at h
      · intro h; rw [h j] at hio; simp at hio
    · rw [hn]
      refine ⟨_, _, rfl, ?_, fun _ => hf⟩
      intro _
      subst hs
      exact Chunking.nil
    · rw [hn]
      have hcl : 0 < c.length := List.length_pos_iff.mpr hne
      have hsl : s'.length < fuel := by
        rw [hs, List.length_append] at hlen
        omega
      obtain ⟨cs, st'', hd, hc1, hc2⟩ := ih (j + 1) st' s' hinv' hsl
      simp only [hd]
      refine ⟨_, _, rfl, ?_, hc2⟩
      intro h
      rw [hs]
      exact Chunking.cons hne hfc (hc1 h)

theorem firstChunkLen_unique (P : Params) (data : List UInt8) (a b : Nat)
    (ha : FirstChunkLen P data a) (hb : FirstChunkLen P data b) : a = b := by
  have key : ∀ a b, FirstChunkLen P data a → FirstChunkLen P data b → ¬ a < b := by
    intro a b ha hb hlt
    rcases ha.1 with h | h
    · exact hb.2 a hlt h
    · have hle : b ≤ Nat.min data.length P.max := by
        rcases hb.1 with h' | h'
        · show b ≤ min _ _
          have := h'.2.1
          have := h'.2.2.1
          omega
        · exact Nat.le_of_eq h'
      omega
  rcases Nat.lt_trichotomy a b with h | h | h
  · exact absurd h (key a b ha hb)
  · exact h
  · exact absurd h (key b a hb ha)

end Verif.Chunker
