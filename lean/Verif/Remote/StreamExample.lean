import Verif.Remote.StreamProps

/-!
# C83: examples and violations
-/

namespace Verif.Remote.Stream

/-! ## Reading -/

example : Reader.chunks ⟨2, true, [1, 2, 3, 4, 5]⟩ 7 1 = some [[2, 3], [4, 5]] := by decide

example : Reader.chunks ⟨2, true, ([] : List Nat)⟩ 2 0 = some [[]] := by decide

/-- After the last character, reading from a file gives an empty chunk, and from memory an error. -/
example : Reader.chunks ⟨2, false, [1, 2]⟩ 4 2 = some [[]] ∧ Reader.chunks ⟨2, true, [1, 2]⟩ 4 2 = none := by decide

example : Arrives (serverRead 2 [1, 2, 3] 0).1 (serverRead 2 [1, 2, 3] 0).2 [[1, 2]] false := .inr ⟨by decide, rfl⟩

example : clientRead (fun d : List Nat => d.sum) 6 [[1, 2], [3]] true = some [1, 2, 3] := by decide

/-- **V58.** A server may send empty responses to keep a request alive (bytestream.proto). The client takes the first one for
the end: the rest of the content is dropped, and success is reported. -/
theorem C83_violation_dump : ∃ (content : List Nat) (sent : List (List Nat)), sent.flatten = content ∧ Arrives sent true sent true ∧
    (dump sent true).2 = true ∧ (dump sent true).1 ≠ content :=
  ⟨[1, 2], [[1], [], [2]], by decide, .inl ⟨rfl, rfl⟩, by decide, by decide⟩

/-! ## Writing -/

variable {α : Type}

/-- A server that accepts only requests with the right offset; the stream may break at any time. -/
def strict : Server (List α) α where
  recv s r ok s' := (r.offset = s.length ∧ ok = true ∧ s' = s ++ r.data) ∨ (ok = false ∧ s' = s)
  query s n s' := n = s.length ∧ s' = s
  finish s n s' := n = some (s.length : Int) ∧ s' = s

theorem strict_conforms : (strict (α := α)).Conforms id where
  recv s r ok s' h := by
    rcases h with ⟨h1, _, rfl⟩ | ⟨_, rfl⟩
    · exact .inr ⟨h1, _, List.prefix_rfl, rfl⟩
    · exact .inl rfl
  query s n s' h := h.2
  finish s n s' h := ⟨h.2, fun k hk => by
    rw [h.1] at hk
    exact (Option.some.inj hk).symm⟩

/-- A run that breaks after the first chunk and is resumed: the hypotheses of `C83_write_partial` are met. -/
example : ∃ s, Steps strict ⟨2, true, [1, 2, 3]⟩ (begin ⟨2, true, [1, 2, 3]⟩ []) (.done true s) ∧ s = [1, 2, 3] := by
  let R : Reader Nat := ⟨2, true, [1, 2, 3]⟩
  have h0 : Steps strict R (begin R []) (.run 0 0 []) := .refl
  have h1 := h0.step (.sent (c := [1, 2]) (by decide) (by decide) (.inl ⟨by decide, rfl, rfl⟩))
  have h2 := h1.step (.resume (c := [3]) (n := 2) (by decide) (by decide) (.inr ⟨rfl, rfl⟩) ⟨by decide, rfl⟩ (by decide))
  have h3 := h2.step (.sent (c := [3]) (by decide) (by decide) (.inl ⟨by decide, rfl, rfl⟩))
  have h4 := h3.step (.finish (by decide) ⟨rfl, rfl⟩)
  exact ⟨_, h4, by decide⟩

/-- The hypotheses of `C83_write_own` are met: a run that succeeds, with requests of which the last has one byte. -/
example : Steps (own (fun d : List Nat => d.sum) (fun _ => true) true 6 3) ⟨2, false, [1, 2, 3]⟩
    (begin ⟨2, false, [1, 2, 3]⟩ ⟨[], false, false, [[7]]⟩) (.done true ⟨[1, 2, 3], false, true, [[1, 2, 3], [7]]⟩) :=
  (C83_write_ends (H := fun d : List Nat => d.sum) (digest := 6) (size := 3) (R := ⟨2, false, [1, 2, 3]⟩) (by decide) [[7]]).1 rfl

/-- If the stream breaks, the server may store a first part of the content. -/
example : Steps (own (fun d : List Nat => d.sum) (fun _ => true) true 6 3) ⟨2, false, [1, 2, 3]⟩
    (begin ⟨2, false, [1, 2, 3]⟩ ⟨[], false, false, []⟩) (.done false ⟨[1, 2], true, false, [[1, 2]]⟩) := by
  let R : Reader Nat := ⟨2, false, [1, 2, 3]⟩
  have h0 : Steps (own (fun d : List Nat => d.sum) (fun _ => true) true 6 3) R (begin R ⟨[], false, false, []⟩)
    (.run 0 0 ⟨[], false, false, []⟩) := .refl
  have h1 := h0.step (.sent (c := [1, 2]) (by decide) (by decide) (.inl ⟨rfl, rfl, rfl, rfl⟩))
  exact h1.step (.broken (c := [3]) (n := 0) (s' := ⟨[1, 2], true, false, []⟩) (by decide) (by decide) (.inr (.inr rfl))
    ⟨rfl, .inr rfl⟩ (by decide))

/-- **V57.** The offset of a request is converted to an integer of 32 bits. So a server that accepts only requests with the
right offset has not more than 2 GiB and one chunk of any blob, and writing a longer blob never succeeds. -/
theorem C83_violation_large (R : Reader α) (hR : 2 ^ 31 + R.size ≤ R.data.length) {s : List α} :
    ¬ Steps strict R (begin R []) (.done true s) := by
  have key : ∀ a b, Steps strict R a b → a.state.length < 2 ^ 31 + R.size → (∀ s, a ≠ .done true s) →
      b.state.length < 2 ^ 31 + R.size ∧ ∀ s, b ≠ .done true s := by
    intro a b h ha hd
    induction h with
    | refl => exact ⟨ha, hd⟩
    | step _ hs ih =>
      have hi := ih.1
      have hrecv : ∀ {pos it : Nat} {s c : List α} {ok s'}, R.chunk it = some c → strict.recv s (request R pos c) ok s' →
          s.length < 2 ^ 31 + R.size → s'.length < 2 ^ 31 + R.size := by
        intro pos it s c ok s' hc hr hl
        rcases hr with ⟨h1, _, rfl⟩ | ⟨_, rfl⟩
        · have hlt := toInt32_lt pos
          have h1' : toInt32 pos = s.length := h1
          have hcl : c.length ≤ R.size := by
            unfold Reader.chunk at hc
            split at hc
            · cases hc
            · cases hc
              rw [List.length_take]
              omega
          have : (request R pos c).data = c := rfl
          rw [List.length_append, this]
          omega
        · exact hl
      cases hs with
      | failed => exact ⟨hi, by rintro s ⟨⟩⟩
      | sent _ hc hr => exact ⟨hrecv hc hr hi, by rintro s ⟨⟩⟩
      | broken _ hc hr hq _ =>
        refine ⟨?_, by rintro s ⟨⟩⟩
        rw [Conf.state, hq.2]
        exact hrecv hc hr hi
      | resume _ hc hr hq _ =>
        refine ⟨?_, by rintro s ⟨⟩⟩
        rw [Conf.state, hq.2]
        exact hrecv hc hr hi
      | finish _ hf =>
        obtain ⟨rfl, rfl⟩ := hf
        refine ⟨hi, fun s he => ?_⟩
        injection he with he _
        have := Option.some.inj (of_decide_eq_true he)
        have hi' : List.length (Conf.state (Conf.run _ _ _)) < _ := hi
        rw [Conf.state] at hi'
        omega
  exact fun h => (key _ _ h (by unfold begin; rw [Conf.state, List.length_nil]; omega) (by rintro s ⟨⟩)).2 s rfl

/-- There are such blobs, with the size of chunks that is used. -/
example : 2 ^ 31 + 65536 ≤ (List.replicate (2 ^ 31 + 65536) 'x').length := by rw [List.length_replicate]; exact Nat.le_refl _

/-- A server that already has the blob, because another client has written it: it ends the stream, and says that everything is
committed. -/
def early (size : Nat) : Server Unit α where
  recv _ _ ok _ := ok = false
  query _ n _ := n = size
  finish _ n _ := n = none

theorem early_conforms (content : List α) : (early (α := α) content.length).Conforms (fun _ => content) where
  recv _ _ _ _ _ := .inl rfl
  query _ _ _ _ := rfl
  finish _ _ _ h := ⟨rfl, fun k hk => by rw [h] at hk; cases hk⟩

/-- **V56.** If the server has the blob already and ends the stream, the client asks for the committed size and tries to go on in
the same stream. For a blob in a file, it does so for ever: no run ends, and every run can be continued. -/
theorem C83_violation_endless (R : Reader α) (hm : R.mem = false) (hR : R.data ≠ []) :
    (∀ ok, ¬ Steps (early R.data.length) R (begin R ()) (.done ok ())) ∧
    ∀ b, Steps (early R.data.length) R (begin R ()) b → ∃ c, Step (early R.data.length) R b c := by
  have hpos : 0 < R.data.length := List.length_pos_iff.2 hR
  have key : ∀ a b, Steps (early R.data.length) R a b → (∃ pos it, a = .run pos it () ∧ it ≤ R.data.length) →
      ∃ pos it, b = .run pos it () ∧ it ≤ R.data.length := by
    intro a b h ha
    induction h with
    | refl => exact ha
    | step _ hs ih =>
      obtain ⟨pos, it, rfl, hit⟩ := ih
      cases hs with
      | failed _ hc =>
        unfold Reader.chunk at hc
        rw [if_neg (by rw [hm]; exact fun h => Bool.noConfusion h.1)] at hc
        cases hc
      | sent _ _ hr => cases hr
      | @broken _ _ _ _ _ n _ _ _ _ hq hn =>
        have : n = R.data.length := hq
        omega
      | @resume _ _ _ _ _ n _ _ _ _ hq _ =>
        have : n = R.data.length := hq
        exact ⟨_, _, rfl, by unfold Reader.start; omega⟩
      | finish hst _ =>
        unfold Reader.stop at hst
        omega
  have hstart : ∃ pos it, begin R () = .run pos it () ∧ it ≤ R.data.length :=
    ⟨_, _, rfl, by unfold Reader.start; omega⟩
  refine ⟨fun ok h => ?_, fun b h => ?_⟩
  · obtain ⟨_, _, h, _⟩ := key _ _ h hstart
    cases h
  · obtain ⟨pos, it, rfl, hit⟩ := key _ _ h hstart
    have hc : R.chunk it = some ((R.data.drop it).take R.size) := if_neg fun h => by
      rw [hm] at h
      exact Bool.noConfusion h.1
    exact ⟨_, .resume (s'' := ()) (s' := ()) (n := R.data.length) (by unfold Reader.stop; omega) hc rfl rfl (by omega)⟩

/-- The same for a blob in memory: failure is reported although the server has the blob. -/
theorem C83_violation_memory (R : Reader α) (hm : R.mem = true) (hR : R.data ≠ []) :
    Steps (early R.data.length) R (begin R ()) (.done false ()) ∧
    ¬ Steps (early R.data.length) R (begin R ()) (.done true ()) := by
  have hpos : 0 < R.data.length := List.length_pos_iff.2 hR
  constructor
  · have hs0 : R.start 0 = 0 := by
      unfold Reader.start
      omega
    have hc : R.chunk 0 = some ((R.data.drop 0).take R.size) := if_neg fun h => by omega
    have h1 : Steps (early R.data.length) R (begin R ()) (.run R.data.length (R.start R.data.length) ()) := by
      have h2 : Steps (early R.data.length) R (begin R ()) (.run 0 0 ()) := by
        unfold begin
        rw [hs0]
        exact .refl
      have h3 := h2.step (.resume (s'' := ()) (s' := ()) (n := R.data.length) (by unfold Reader.stop; omega) hc rfl rfl (by omega))
      simpa using h3
    refine h1.step (.failed (by unfold Reader.start Reader.stop; omega) ?_)
    refine if_pos ⟨hm, hR, ?_⟩
    unfold Reader.start Reader.stop
    omega
  · intro h
    cases h with
    | step _ hs =>
      generalize hb : Conf.done true () = b at hs
      cases hs with
      | failed => cases hb
      | sent => cases hb
      | broken => cases hb
      | resume => cases hb
      | finish _ hf =>
        injection hb with hb _
        rw [show _ = none from hf] at hb
        simp at hb

end Verif.Remote.Stream
