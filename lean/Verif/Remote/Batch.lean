import Mathlib.Data.List.Basic
import Mathlib.Data.List.Nodup

/-!
# Batched uploads: C50

Model of `UpdateContainerAndUpload` in `src/buildtool/execution_api/common/common_api.cpp`.
-/

namespace Verif.Remote

variable {β σ : Type} [DecidableEq β]

/-- common_api.cpp:226-229: the size of a container. -/
def total (size : β → Nat) (c : List β) : Nat := (c.map size).sum

/-- common_api.cpp:207-257 (`UpdateContainerAndUpload`).  A container is a set, here a list without duplicates in any
order.  `up` is the uploader, changing the state of the world and telling if it was successful.  The result is
whether the call was successful, the new container and the new state. -/
def update (size : β → Nat) (lim : Nat) (up : σ → List β → Bool × σ) (c : List β) (s : σ) (b : β) :
    Bool × List β × σ :=
  if size b > lim then ((up s [b]).1, c, (up s [b]).2)
  else if b ∈ c then (true, c, s)
  else if total size c + size b > lim then
    if (up s c).1 then (true, [b], (up s c).2) else (false, [], (up s c).2)
  else (true, b :: c, s)

/-- common_api.cpp:122-140 and git_api.cpp:192-250: feeding blobs to the container until one call fails, and uploading
what is left in the end. -/
def feed (size : β → Nat) (lim : Nat) (up : σ → List β → Bool × σ) : List β → List β → σ → Bool × σ
  | [], c, s => up s c
  | b :: t, c, s =>
    if (update size lim up c s b).1 then feed size lim up t (update size lim up c s b).2.1 (update size lim up c s b).2.2
    else (false, (update size lim up c s b).2.2)

/-! ## Properties -/

/-- For stating the properties: an uploader that records all batches; whether a batch is uploaded may depend on
everything before. -/
def recorder (accept : List (List β) → List β → Bool) (h : List (List β)) (batch : List β) :
    Bool × List (List β) := (accept h batch, h ++ [batch])

/-- The batches that are uploaded when feeding some blobs, and whether this was successful. -/
def batches (size : β → Nat) (lim : Nat) (accept : List (List β) → List β → Bool) (l : List β) :
    Bool × List (List β) := feed size lim (recorder accept) l [] []

/-- A batch that may be uploaded. -/
def Fits (size : β → Nat) (lim : Nat) (batch : List β) : Prop :=
  batch.Nodup ∧ (total size batch ≤ lim ∨ ∃ b, batch = [b])

omit [DecidableEq β] in
theorem total_cons (size : β → Nat) (b : β) (c : List β) : total size (b :: c) = size b + total size c := by
  unfold total
  rw [List.map_cons, List.sum_cons]

/-- Invariant of a container. -/
def Good (size : β → Nat) (lim : Nat) (c : List β) : Prop := c.Nodup ∧ total size c ≤ lim

omit [DecidableEq β] in
theorem Good.fits {size : β → Nat} {lim : Nat} {c : List β} (h : Good size lim c) : Fits size lim c :=
  ⟨h.1, .inl h.2⟩

theorem update_good {size : β → Nat} {lim : Nat} {up : σ → List β → Bool × σ} {c : List β} {s : σ} {b : β}
    (h : Good size lim c) : Good size lim (update size lim up c s b).2.1 := by
  unfold update
  by_cases h1 : size b > lim
  · rw [if_pos h1]
    exact h
  · rw [if_neg h1]
    by_cases h2 : b ∈ c
    · rw [if_pos h2]
      exact h
    · rw [if_neg h2]
      by_cases h3 : total size c + size b > lim
      · rw [if_pos h3]
        by_cases h4 : (up s c).1 = true
        · rw [if_pos h4]
          exact ⟨by simp, by rw [total_cons]; unfold total; simp; omega⟩
        · rw [if_neg h4]
          exact ⟨by simp, by unfold total; simp⟩
      · rw [if_neg h3]
        exact ⟨List.nodup_cons.mpr ⟨h2, h.1⟩, by rw [total_cons]; omega⟩

/-- What one call does: either it uploads nothing, or one batch that fits. -/
theorem update_upload (size : β → Nat) (lim : Nat) (up : σ → List β → Bool × σ) (c : List β) (s : σ) (b : β)
    (h : Good size lim c) :
    ((update size lim up c s b).1 = true ∧ (update size lim up c s b).2.2 = s ∧
      ∀ x, (x ∈ c ∨ x = b) ↔ x ∈ (update size lim up c s b).2.1) ∨
    ∃ batch, Fits size lim batch ∧ (update size lim up c s b).1 = (up s batch).1 ∧
      (update size lim up c s b).2.2 = (up s batch).2 ∧ (∀ x ∈ batch, x ∈ c ∨ x = b) ∧
      (∀ x ∈ (update size lim up c s b).2.1, x ∈ c ∨ x = b) ∧
      ((up s batch).1 = true → ∀ x, (x ∈ c ∨ x = b) → x ∈ batch ∨ x ∈ (update size lim up c s b).2.1) := by
  unfold update
  by_cases h1 : size b > lim
  · rw [if_pos h1]
    refine .inr ⟨[b], ⟨by simp, .inr ⟨b, rfl⟩⟩, rfl, rfl, by simp, fun x hx => .inl hx, fun _ x hx => ?_⟩
    rcases hx with hx | rfl
    · exact .inr hx
    · exact .inl (by simp)
  · rw [if_neg h1]
    by_cases h2 : b ∈ c
    · rw [if_pos h2]
      refine .inl ⟨rfl, rfl, fun x => ⟨?_, .inl⟩⟩
      rintro (hx | rfl)
      · exact hx
      · exact h2
    · rw [if_neg h2]
      by_cases h3 : total size c + size b > lim
      · rw [if_pos h3]
        refine .inr ⟨c, h.fits, ?_⟩
        by_cases h4 : (up s c).1 = true
        · rw [if_pos h4]
          refine ⟨h4.symm, rfl, fun x hx => .inl hx, fun x hx => .inr (by simpa using hx), fun _ x hx => ?_⟩
          rcases hx with hx | rfl
          · exact .inl hx
          · exact .inr (by simp)
        · rw [if_neg h4]
          exact ⟨(Bool.eq_false_iff.mpr h4).symm, rfl, fun x hx => .inl hx, (fun x hx => nomatch hx),
            fun h => absurd h h4⟩
      · rw [if_neg h3]
        refine .inl ⟨rfl, rfl, fun x => ?_⟩
        simp only [List.mem_cons]
        exact or_comm

theorem feed_recorder (size : β → Nat) (lim : Nat) (accept : List (List β) → List β → Bool) :
    ∀ (l c : List β) (h : List (List β)), Good size lim c →
      ∃ t, (feed size lim (recorder accept) l c h).2 = h ++ t ∧ (∀ batch ∈ t, Fits size lim batch) ∧
        (∀ batch ∈ t, ∀ x ∈ batch, x ∈ c ∨ x ∈ l) ∧
        ((feed size lim (recorder accept) l c h).1 = true → ∀ x, x ∈ c ∨ x ∈ l → ∃ batch ∈ t, x ∈ batch) ∧
        ((feed size lim (recorder accept) l c h).1 = true →
          ∀ a batch b, t = a ++ batch :: b → accept (h ++ a) batch = true) ∧
        ((feed size lim (recorder accept) l c h).1 = false →
          ∃ a batch, t = a ++ [batch] ∧ accept (h ++ a) batch = false)
  | [], c, h, hc => by
    refine ⟨[c], rfl, by simpa using hc.fits, fun batch hb x hx => .inl ?_, fun _ x hx => ⟨c, by simp, ?_⟩,
      fun ha a batch b e => ?_, fun ha => ⟨[], c, rfl, ?_⟩⟩
    · rw [List.mem_singleton] at hb
      rwa [← hb]
    · exact hx.elim id (fun e => nomatch e)
    · have ha' : accept h c = true := ha
      cases a with
      | nil =>
        injection e with e1 _
        rw [List.append_nil, ← e1]
        exact ha'
      | cons y a =>
        injection e with _ e2
        exact absurd e2 (by simp)
    · have ha' : accept h c = false := ha
      rwa [List.append_nil]
  | b :: l, c, h, hc => by
    rw [feed]
    rcases update_upload size lim (recorder accept) c h b hc with ⟨e1, e2, e3⟩ | ⟨batch, f1, f2, f3, f4, f5, f6⟩
    · rw [if_pos e1, e2]
      obtain ⟨t, g1, g2, g3, g4, g5, g6⟩ := feed_recorder size lim accept l _ h (update_good (up := recorder accept) (s := h) (b := b) hc)
      refine ⟨t, g1, g2, fun batch hb x hx => ?_, fun hf x hx => g4 hf x ?_, g5, g6⟩
      · rcases g3 batch hb x hx with hx | hx
        · rcases (e3 x).mpr hx with hx | rfl
          · exact .inl hx
          · exact .inr (by simp)
        · exact .inr (by simp [hx])
      · rcases hx with hx | hx
        · exact .inl ((e3 x).mp (.inl hx))
        · rcases List.mem_cons.mp hx with rfl | hx
          · exact .inl ((e3 x).mp (.inr rfl))
          · exact .inr hx
    · by_cases ha : (update size lim (recorder accept) c h b).1 = true
      · rw [if_pos ha, f3]
        obtain ⟨t, g1, g2, g3, g4, g5, g6⟩ := feed_recorder size lim accept l _ (h ++ [batch])
          (update_good (up := recorder accept) (s := h) (b := b) hc)
        refine ⟨batch :: t, ?_, ?_, ?_, ?_, ?_, ?_⟩
        · have : (recorder accept h batch).2 = h ++ [batch] := rfl
          rw [this, g1, List.append_assoc]
          rfl
        · intro y hy
          rcases List.mem_cons.mp hy with rfl | hy
          · exact f1
          · exact g2 y hy
        · intro y hy x hx
          rcases List.mem_cons.mp hy with rfl | hy
          · rcases f4 x hx with hx | rfl
            · exact .inl hx
            · exact .inr (by simp)
          · rcases g3 y hy x hx with hx | hx
            · rcases f5 x hx with hx | rfl
              · exact .inl hx
              · exact .inr (by simp)
            · exact .inr (by simp [hx])
        · intro hf x hx
          have hx' : (x ∈ c ∨ x = b) ∨ x ∈ l := by
            rcases hx with hx | hx
            · exact .inl (.inl hx)
            · rcases List.mem_cons.mp hx with rfl | hx
              · exact .inl (.inr rfl)
              · exact .inr hx
          rcases hx' with hx | hx
          · rcases f6 (by rw [← f2]; exact ha) x hx with hx | hx
            · exact ⟨batch, by simp, hx⟩
            · obtain ⟨y, hy, hxy⟩ := g4 hf x (.inl hx)
              exact ⟨y, by simp [hy], hxy⟩
          · obtain ⟨y, hy, hxy⟩ := g4 hf x (.inr hx)
            exact ⟨y, by simp [hy], hxy⟩
        · intro hf a y d e
          cases a with
          | nil =>
            injection e with e1 _
            rw [List.append_nil, ← e1]
            rw [f2] at ha
            exact ha
          | cons z a =>
            injection e with e1 e2
            have := g5 hf a y d e2
            rw [List.append_assoc] at this
            rw [← e1]
            exact this
        · intro hf
          obtain ⟨a, y, e1, e2⟩ := g6 hf
          refine ⟨batch :: a, y, by rw [e1]; rfl, ?_⟩
          rw [List.append_assoc] at e2
          exact e2
      · rw [if_neg ha, f3]
        refine ⟨[batch], rfl, by simpa using f1, ?_, (fun h => nomatch h), (fun h => nomatch h), fun _ => ⟨[], batch, rfl, ?_⟩⟩
        · intro y hy x hx
          rw [List.mem_singleton] at hy
          subst hy
          rcases f4 x hx with hx | rfl
          · exact .inl hx
          · exact .inr (by simp)
        · rw [f2] at ha
          rw [List.append_nil]
          exact Bool.eq_false_iff.mpr ha

/-- C50: no batch exceeds the limit, unless it is a single blob; and no batch contains a blob twice. -/
theorem C50_limit (size : β → Nat) (lim : Nat) (accept : List (List β) → List β → Bool) (l : List β) :
    ∀ batch ∈ (batches size lim accept l).2,
      batch.Nodup ∧ ((batch.map size).sum ≤ lim ∨ ∃ b, batch = [b]) := by
  obtain ⟨t, h1, h2, _⟩ := feed_recorder size lim accept l [] [] ⟨by simp, by simp [total]⟩
  unfold batches
  rw [h1]
  exact h2

/-- C50: on success, exactly the given blobs are in the batches, and all batches were accepted. -/
theorem C50_complete (size : β → Nat) (lim : Nat) (accept : List (List β) → List β → Bool) (l : List β)
    (h : (batches size lim accept l).1 = true) :
    (∀ b, b ∈ l ↔ ∃ batch ∈ (batches size lim accept l).2, b ∈ batch) ∧
    ∀ before batch after, (batches size lim accept l).2 = before ++ batch :: after → accept before batch = true := by
  obtain ⟨t, h1, _, h3, h4, h5, _⟩ := feed_recorder size lim accept l [] [] ⟨by simp, by simp [total]⟩
  unfold batches at h ⊢
  rw [h1]
  refine ⟨fun b => ⟨fun hb => h4 h b (.inr hb), fun ⟨batch, hb, hx⟩ => ?_⟩, h5 h⟩
  exact (h3 batch hb b hx).elim (fun e => nomatch e) id

/-- C50: on failure, the last batch was not accepted.  In particular, nothing is uploaded after a failure, and there
is success if all batches are accepted. -/
theorem C50_failure (size : β → Nat) (lim : Nat) (accept : List (List β) → List β → Bool) (l : List β)
    (h : (batches size lim accept l).1 = false) :
    ∃ before batch, (batches size lim accept l).2 = before ++ [batch] ∧ accept before batch = false := by
  obtain ⟨t, h1, _, _, _, _, h6⟩ := feed_recorder size lim accept l [] [] ⟨by simp, by simp [total]⟩
  unfold batches at h ⊢
  rw [h1]
  exact h6 h

/-- With limit 10: a blob of 12 is uploaded on its own, and the others together where they fit. -/
example : batches (β := Nat) id 10 (fun _ _ => true) [4, 5, 12, 3, 4] = (true, [[12], [5, 4], [4, 3]]) := by decide

example : ∀ b, b ∈ [4, 5, 12, 3, 4] ↔ ∃ batch ∈ (batches (β := Nat) id 10 (fun _ _ => true) [4, 5, 12, 3, 4]).2, b ∈ batch :=
  (C50_complete id 10 (fun _ _ => true) [4, 5, 12, 3, 4] (by decide)).1

example : ∃ before batch, (batches (β := Nat) id 10 (fun h _ => decide (h.length < 1)) [4, 5, 12, 3, 4]).2 =
    before ++ [batch] ∧ (fun (h : List (List Nat)) (_ : List Nat) => decide (h.length < 1)) before batch = false :=
  C50_failure id 10 _ [4, 5, 12, 3, 4] (by decide)

end Verif.Remote
