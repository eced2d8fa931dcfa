import Verif.Chunker.Lemmas

/-!
# Properties C11 and C13: content-defined chunking
-/

namespace Verif.Chunker

/-- C11 (main): for every file, average chunk size, hash table, masks and every pattern of
read failures, the chunking loop terminates without undefined behaviour; if it reports success, the
delivered chunks are the chunking of the file content; it reports success if no read fails. -/
theorem C11_chunking (P : Params) (h4 : 4 ≤ P.avg) (file : List UInt8) (io : Nat → Bool)
    (fuel : Nat) (hf : file.length < fuel) :
    ∃ cs st, drain P io fuel 0 (init P file) = .done cs st ∧
      (finished st = true → Chunking P file cs) ∧
      ((∀ i, io i = true) → finished st = true) :=
  drain_spec h4 io fuel 0 (init P file) file (inv_init P file) hf

/-- C11 (nothing lost): the concatenation of the chunks of a file is the file. -/
theorem C11_concat (P : Params) (file : List UInt8) (cs : List (List UInt8))
    (h : Chunking P file cs) : cs.flatten = file := by
  induction h with
  | nil => rfl
  | cons _ _ _ ih => rw [List.flatten_cons, ih]

/-- C11 (bounds): no chunk is empty or longer than the maximum, and every chunk but the last has at
least the minimum size. -/
theorem C11_chunk_sizes (P : Params) (h4 : 4 ≤ P.avg) (file : List UInt8)
    (cs : List (List UInt8)) (h : Chunking P file cs) :
    (∀ c ∈ cs, 0 < c.length ∧ c.length ≤ 8 * P.avg) ∧
    (∀ c ∈ cs.dropLast, P.avg / 4 ≤ c.length) := by
  have hmm : P.min ≤ P.max := by
    unfold Params.min Params.max
    have := Nat.div_le_self P.avg 4
    omega
  induction h with
  | nil => simp
  | @cons c data cs hne hfc hch ih =>
    obtain ⟨ih1, ih2⟩ := ih
    have hmax : c.length ≤ P.max := by
      rcases hfc.1 with h | h
      · exact Nat.le_of_lt h.2.2.1
      · rw [h]; exact Nat.min_le_right _ _
    constructor
    · intro x hx
      rw [List.mem_cons] at hx
      rcases hx with rfl | hx
      · refine ⟨List.length_pos_iff.mpr hne, ?_⟩
        unfold Params.max at hmax
        omega
      · exact ih1 x hx
    · intro x hx
      cases hch with
      | nil => simp at hx
      | @cons c' data' cs' hne' hfc' hch' =>
        rw [List.dropLast_cons_of_ne_nil (by simp), List.mem_cons] at hx
        rcases hx with rfl | hx
        · have hpos : 0 < c'.length := List.length_pos_iff.mpr hne'
          rcases hfc.1 with h | h
          · exact h.1
          · have h' : x.length = min (x ++ (c' ++ data')).length P.max := h
            rw [List.length_append, List.length_append] at h'
            show P.min ≤ x.length
            omega
        · exact ih2 x hx

/-- C11 (cut points depend on content only): the chunking of a file is unique, so neither buffer
size nor the way the stream delivers data matters. -/
theorem C11_deterministic (P : Params) (file : List UInt8) (cs cs' : List (List UInt8))
    (h : Chunking P file cs) (h' : Chunking P file cs') : cs = cs' := by
  induction h generalizing cs' with
  | nil =>
    generalize hd : ([] : List UInt8) = d at h'
    cases h' with
    | nil => rfl
    | cons hne _ _ =>
      exfalso
      exact hne (List.append_eq_nil_iff.mp hd.symm).1
  | @cons c data cs hne hfc hch ih =>
    generalize hd : c ++ data = d at h' hfc
    cases h' with
    | nil =>
      exfalso
      exact hne (List.append_eq_nil_iff.mp hd).1
    | @cons c' data' cs' hne' hfc' hch' =>
      have hlen := firstChunkLen_unique P _ _ _ hfc hfc'
      obtain ⟨rfl, rfl⟩ := List.append_inj hd hlen
      rw [ih _ hch']

/-- C11 (locality): data is re-chunked identically behind a chunk boundary, whatever precedes it. -/
theorem C11_suffix (P : Params) (c data : List UInt8) (cs : List (List UInt8))
    (h : Chunking P (c ++ data) (c :: cs)) : Chunking P data cs := by
  generalize hd : c ++ data = d at h
  cases h with
  | cons hne hfc hch =>
    have := List.append_cancel_left hd
    rw [this]
    exact hch

/-- C13: a chunk, taken as a file of its own, has itself as its only chunk. -/
theorem C13_chunk_not_split (P : Params) (file : List UInt8)
    (cs : List (List UInt8)) (h : Chunking P file cs) (c : List UInt8) (hc : c ∈ cs) :
    Chunking P c [c] := by
  induction h with
  | nil => simp at hc
  | @cons c' data cs hne hfc hch ih =>
    rw [List.mem_cons] at hc
    rcases hc with rfl | hc
    · have hle : c.length ≤ P.max := by
        rcases hfc.1 with h | h
        · exact Nat.le_of_lt h.2.2.1
        · rw [h]; exact Nat.min_le_right _ _
      have : Chunking P (c ++ []) [c] := by
        refine Chunking.cons hne ⟨Or.inr ?_, ?_⟩ Chunking.nil
        · rw [List.append_nil]
          show _ = min _ _
          omega
        · intro j hj hcut
          rw [List.append_nil] at hcut
          exact hfc.2 j hj ((cutAt_append P c data j hj).mpr hcut)
      rwa [List.append_nil] at this
    · exact ih hc

/-- C13 (at the level of the code): running the chunker on a file consisting of one chunk of another
file delivers exactly one chunk. -/
theorem C13_chunker_on_chunk (P : Params) (h4 : 4 ≤ P.avg) (file : List UInt8)
    (cs : List (List UInt8)) (h : Chunking P file cs) (c : List UInt8) (hc : c ∈ cs)
    (fuel : Nat) (hf : c.length < fuel) :
    ∃ st, drain P (fun _ => true) fuel 0 (init P c) = .done [c] st ∧ finished st = true := by
  obtain ⟨cs', st, h1, h2, h3⟩ := C11_chunking P h4 c (fun _ => true) fuel hf
  have hfin := h3 (fun _ => rfl)
  have := C11_deterministic P c cs' [c] (h2 hfin) (C13_chunk_not_split P file cs h c hc)
  subst this
  exact ⟨st, h1, hfin⟩

/-- Tiny parameters for which the machinery can be exercised by evaluation. -/
def exampleParams : Params := { avg := 4, gear := fun b => b.toUInt64, maskS := 7, maskL := 1 }

/-- Chunks of a finished run, for the examples. -/
def Loop.chunks? : Loop → Option (List (List UInt8) × Bool)
  | .done cs st => some (cs, finished st)
  | _ => none

example : (drain exampleParams (fun _ => true) 100 0
    (init exampleParams ([1, 2, 3, 4, 5, 8, 1, 1, 1, 2, 3, 3, 3] ++ List.replicate 70 1))).chunks? =
    some ([[1, 2, 3, 4, 5], [8, 1, 1, 1]] ++ [[2, 3, 3, 3] ++ List.replicate 28 1] ++
      [List.replicate 32 1] ++ [List.replicate 10 1], true) := by decide +kernel

example : ∃ cs, Chunking exampleParams [1, 2, 3, 4, 5, 8, 1, 1, 1, 2, 3] cs := by
  obtain ⟨cs, st, _, h2, h3⟩ := C11_chunking exampleParams (by decide)
    [1, 2, 3, 4, 5, 8, 1, 1, 1, 2, 3] (fun _ => true) 12 (by decide)
  exact ⟨cs, h2 (h3 fun _ => rfl)⟩

end Verif.Chunker
