import Mathlib.Data.List.Perm.Subperm
import Verif.Remote.Missing

/-!
# Uploading a set of blobs: C67

Model of `src/buildtool/execution_api/remote/bazel/bazel_cas_client.cpp` (`BatchUpdateBlobs`) and of
`src/buildtool/execution_api/remote/bazel/bazel_network.cpp` (`DoUploadBlobs`, `UploadBlobs`).
-/

namespace Verif.Remote

/-- The server, with its state: a batch request yields, after retrying, the confirmed digests (none, if the request
fails; no value, if there is an exception while handling the response), and writing a single blob as a stream
(`UpdateSingleBlob`) succeeds or not. -/
structure Server (σ β δ : Type) where
  send : σ → List β → Option (List δ) × σ
  write : σ → β → Bool × σ

variable {σ β δ : Type} [DecidableEq δ]

/-- Insertion of a range into an unordered set (bazel_cas_client.cpp:484-486). -/
def addAll : List δ → List δ → List δ
  | u, [] => u
  | u, d :: t => addAll (if d ∈ u then u else u ++ [d]) t

/-- bazel_cas_client.cpp:437-508: the loop over the blobs; the digests confirmed, and the state of the server.  The
number of blobs is enough fuel. -/
def batchLoop (L : Limits β) (S : Server σ β δ) : Nat → List β → List δ → σ → List δ × σ
  | _, [], upd, s => (upd, s)
  | 0, _ :: _, upd, s => (upd, s)
  | n + 1, k :: t, upd, s =>
    if (initRequest L (k :: t) [] 0).1.isEmpty then batchLoop L S n t upd s
    else
      match (S.send s (initRequest L (k :: t) [] 0).1).1 with
      | none => (upd, (S.send s (initRequest L (k :: t) [] 0).1).2)
      | some c => batchLoop L S n (initRequest L (k :: t) [] 0).2 (addAll upd c) (S.send s (initRequest L (k :: t) [] 0).1).2

/-- bazel_cas_client.cpp:548-559: upload one blob after the other, counting successes. -/
def writeAll (S : Server σ β δ) : List β → σ → Nat × σ
  | [], s => (0, s)
  | b :: t, s =>
    ((if (S.write s b).1 then 1 else 0) + (writeAll S t (S.write s b).2).1, (writeAll S t (S.write s b).2).2)

/-- bazel_cas_client.cpp:416-561 (`BatchUpdateBlobs`); `none` is for more recursive calls. -/
def batchUpdate (L : Limits β) (S : Server σ β δ) (dig : β → δ) : Nat → List β → σ → Option (Nat × σ)
  | 0, _, _ => none
  | n + 1, blobs, s =>
    if blobs.isEmpty then some (0, s)
    else
      let r := batchLoop L S blobs.length blobs [] s
      if !r.1.isEmpty && blobs.length != r.1.length then
        match batchUpdate L S dig n (blobs.filter (fun b => decide (dig b ∉ r.1))) r.2 with
        | none => none
        | some q => some (r.1.length + q.1, q.2)
      else if r.1.isEmpty && blobs.length != r.1.length then some (writeAll S blobs r.2)
      else some (r.1.length, r.2)

/-- bazel_network.cpp:93-102: upload what is too long for a message as stream, until one fails. -/
def writeLarge (S : Server σ β δ) (large : β → Bool) : List β → σ → Bool × σ
  | [], s => (true, s)
  | b :: t, s =>
    if large b then (if (S.write s b).1 then writeLarge S large t (S.write s b).2 else (false, (S.write s b).2))
    else writeLarge S large t s

/-- bazel_network.cpp:84-112 (`DoUploadBlobs`). -/
def doUpload (L : Limits β) (S : Server σ β δ) (dig : β → δ) (large : β → Bool) (blobs : List β) (s : σ) :
    Option (Bool × σ) :=
  if (writeLarge S large blobs s).1 then
    match batchUpdate L S dig (blobs.length + 1) (blobs.filter (fun b => !large b)) (writeLarge S large blobs s).2 with
    | none => none
    | some q => some (q.1 == (blobs.filter (fun b => !large b)).length, q.2)
  else some (false, (writeLarge S large blobs s).2)

/-- bazel_network.cpp:114-127 (`UploadBlobs`), where `missing` is the result of `FindMissingBlobs`. -/
def uploadBlobs (L : Limits β) (S : Server σ β δ) (dig : β → δ) (large : β → Bool) (skip : Bool) (missing : List δ)
    (blobs : List β) (s : σ) : Option (Bool × σ) :=
  if skip then doUpload L S dig large blobs s
  else doUpload L S dig large (blobs.filter (fun b => decide (dig b ∈ missing))) s

/-! ## Properties -/

/-- A server that confirms only what was sent to it and what it then has, and that does not lose anything. -/
structure Server.Honest (S : Server σ β δ) (dig : β → δ) (has : σ → δ → Prop) : Prop where
  send_keep : ∀ s r d, has s d → has (S.send s r).2 d
  send_conf : ∀ s r c, (S.send s r).1 = some c → ∀ d ∈ c, d ∈ r.map dig ∧ has (S.send s r).2 d
  write_keep : ∀ s b d, has s d → has (S.write s b).2 d
  write_conf : ∀ s b, (S.write s b).1 = true → has (S.write s b).2 (dig b)

theorem mem_addAll (d : δ) : ∀ (c u : List δ), d ∈ addAll u c ↔ d ∈ u ∨ d ∈ c
  | [], u => by simp [addAll]
  | x :: c, u => by
    rw [addAll, mem_addAll d c]
    split
    · rename_i hx
      constructor
      · rintro (h | h)
        · exact .inl h
        · exact .inr (List.mem_cons_of_mem _ h)
      · rintro (h | h)
        · exact .inl h
        · rcases List.mem_cons.mp h with rfl | h
          · exact .inl hx
          · exact .inr h
    · simp [or_assoc]

theorem nodup_addAll : ∀ (c u : List δ), u.Nodup → (addAll u c).Nodup
  | [], u, h => h
  | x :: c, u, h => by
    rw [addAll]
    refine nodup_addAll c _ ?_
    split
    · exact h
    · rename_i hx
      rw [List.nodup_append]
      exact ⟨h, by simp, fun a ha b hb => by
        rw [List.mem_singleton] at hb
        rintro rfl
        exact hx (hb ▸ ha)⟩

section
variable {L : Limits β} {S : Server σ β δ} {dig : β → δ} {has : σ → δ → Prop}

/-- After the loop: what is confirmed was in the blobs and is available. -/
theorem batchLoop_spec (hS : S.Honest dig has) : ∀ (n : Nat) (l : List β) (upd : List δ) (s : σ), upd.Nodup →
    (∀ d ∈ upd, has s d) →
      (batchLoop L S n l upd s).1.Nodup ∧
      (∀ d ∈ (batchLoop L S n l upd s).1, (d ∈ upd ∨ d ∈ l.map dig) ∧ has (batchLoop L S n l upd s).2 d) ∧
      (∀ d, has s d → has (batchLoop L S n l upd s).2 d)
  | n, [], upd, s, hn, hu => by
    have e : batchLoop L S n [] upd s = (upd, s) := by cases n <;> rfl
    rw [e]
    exact ⟨hn, fun d hd => ⟨.inl hd, hu d hd⟩, fun d h => h⟩
  | 0, b :: t, upd, s, hn, hu => ⟨hn, fun d hd => ⟨.inl hd, hu d hd⟩, fun d h => h⟩
  | n + 1, b :: t, upd, s, hn, hu => by
    rw [batchLoop]
    split
    · obtain ⟨h1, h2, h3⟩ := batchLoop_spec hS n t upd s hn hu
      refine ⟨h1, fun d hd => ⟨?_, (h2 d hd).2⟩, h3⟩
      rcases (h2 d hd).1 with h | h
      · exact .inl h
      · exact .inr (by rw [List.map_cons]; exact List.mem_cons_of_mem _ h)
    · have happ := initRequest_append L (b :: t) [] 0
      rw [List.nil_append] at happ
      generalize (initRequest L (b :: t) [] 0).1 = req at happ
      generalize (initRequest L (b :: t) [] 0).2 = rest at happ
      obtain ⟨o, ho⟩ : ∃ o, (S.send s req).1 = o := ⟨_, rfl⟩
      cases o with
      | none =>
        simp only [ho]
        exact ⟨hn, fun d hd => ⟨.inl hd, hS.send_keep _ _ _ (hu d hd)⟩, fun d h => hS.send_keep _ _ _ h⟩
      | some c =>
        simp only [ho]
        have hc := hS.send_conf s req c ho
        obtain ⟨h1, h2, h3⟩ := batchLoop_spec hS n rest (addAll upd c) (S.send s req).2 (nodup_addAll c upd hn)
          (fun d hd => by
            rcases (mem_addAll d c upd).mp hd with h | h
            · exact hS.send_keep _ _ _ (hu d h)
            · exact (hc d h).2)
        refine ⟨h1, fun d hd => ⟨?_, (h2 d hd).2⟩, fun d h => h3 d (hS.send_keep _ _ _ h)⟩
        rw [← happ, List.map_append, List.mem_append]
        rcases (h2 d hd).1 with h | h
        · rcases (mem_addAll d c upd).mp h with h | h
          · exact .inl h
          · exact .inr (.inl (hc d h).1)
        · exact .inr (.inr h)

omit [DecidableEq δ] in
theorem writeAll_spec (hS : S.Honest dig has) : ∀ (l : List β) (s : σ),
    (writeAll S l s).1 ≤ l.length ∧ (∀ d, has s d → has (writeAll S l s).2 d) ∧
    ((writeAll S l s).1 = l.length → ∀ b ∈ l, has (writeAll S l s).2 (dig b))
  | [], s => ⟨Nat.le_refl _, fun _ h => h, fun _ b hb => nomatch hb⟩
  | b :: t, s => by
    obtain ⟨h1, h2, h3⟩ := writeAll_spec hS t (S.write s b).2
    rw [writeAll]
    simp only [List.length_cons]
    refine ⟨by split <;> omega, fun d h => h2 d (hS.write_keep _ _ _ h), fun e b' hb' => ?_⟩
    have hw : (S.write s b).1 = true := by
      by_contra hw
      rw [if_neg hw] at e
      omega
    rw [if_pos hw] at e
    rcases List.mem_cons.mp hb' with rfl | hb'
    · exact h2 _ (hS.write_conf _ _ hw)
    · exact h3 (by omega) b' hb'

omit [DecidableEq δ] in
theorem writeAll_all (hw : ∀ s b, (S.write s b).1 = true) : ∀ (l : List β) (s : σ), (writeAll S l s).1 = l.length
  | [], s => rfl
  | b :: t, s => by
    rw [writeAll]
    simp only [List.length_cons]
    rw [writeAll_all hw t, if_pos (hw s b)]
    omega

omit [DecidableEq δ] in
/-- A list without duplicates with as many elements as one that includes it has all of its elements. -/
theorem covers {u v : List δ} (hu : u.Nodup) (hsub : ∀ d ∈ u, d ∈ v) (hlen : v.length ≤ u.length) : ∀ d ∈ v, d ∈ u := by
  intro d hd
  have hp : u.Subperm v := List.subperm_of_subset hu hsub
  exact (hp.perm_of_length_le hlen).mem_iff.mpr hd

/-- The number of blobs that are not confirmed. -/
theorem length_missing {blobs : List β} (hd : (blobs.map dig).Nodup) {upd : List δ} (hu : upd.Nodup)
    (hsub : ∀ d ∈ upd, d ∈ blobs.map dig) :
    (blobs.filter (fun b => decide (dig b ∉ upd))).length + upd.length = blobs.length := by
  have hp : (blobs.filter (fun b => decide (dig b ∈ upd))).map dig |>.Perm upd := by
    refine (List.perm_ext_iff_of_nodup (hd.sublist (List.filter_sublist.map dig)) hu).mpr fun d => ?_
    rw [List.mem_map]
    constructor
    · rintro ⟨b, hb, rfl⟩
      simpa using (List.mem_filter.mp hb).2
    · intro h
      obtain ⟨b, hb, rfl⟩ := List.mem_map.mp (hsub d h)
      exact ⟨b, List.mem_filter.mpr ⟨hb, by simpa using h⟩, rfl⟩
  have h1 := hp.length_eq
  rw [List.length_map] at h1
  rw [← h1, List.length_eq_length_filter_add (l := blobs) (fun b => decide (dig b ∈ upd)), Nat.add_comm]
  congr 2
  refine List.filter_congr fun b _ => ?_
  by_cases h : dig b ∈ upd <;> simp [h]

/-- Everything about `BatchUpdateBlobs`. -/
theorem batchUpdate_spec (hS : S.Honest dig has) : ∀ (n : Nat) (blobs : List β) (s : σ), blobs.length < n →
    (blobs.map dig).Nodup →
      ∃ m s', batchUpdate L S dig n blobs s = some (m, s') ∧ m ≤ blobs.length ∧ (∀ d, has s d → has s' d) ∧
        (m = blobs.length → ∀ b ∈ blobs, has s' (dig b)) ∧
        ((∀ s b, (S.write s b).1 = true) → m = blobs.length)
  | n + 1, blobs, s, hn, hd => by
    rw [batchUpdate]
    by_cases hem : blobs = []
    · subst hem
      exact ⟨0, s, rfl, Nat.le_refl _, fun _ h => h, (fun _ b hb => nomatch hb), fun _ => rfl⟩
    · rw [if_neg (by rw [List.isEmpty_iff]; exact hem)]
      obtain ⟨h1, h2, h3⟩ := batchLoop_spec (L := L) hS blobs.length blobs [] s List.nodup_nil (fun d hd => nomatch hd)
      generalize batchLoop L S blobs.length blobs [] s = r at h1 h2 h3
      obtain ⟨upd, s1⟩ := r
      simp only at h1 h2 h3 ⊢
      have hsub : ∀ d ∈ upd, d ∈ blobs.map dig := fun d hd => by
        rcases (h2 d hd).1 with h | h
        · exact nomatch h
        · exact h
      have hm := length_missing hd h1 hsub
      by_cases hu : upd = []
      · subst hu
        rw [if_neg (by simp), if_pos (by simp [hem])]
        obtain ⟨w1, w2, w3⟩ := writeAll_spec hS blobs s1
        exact ⟨_, _, rfl, w1, fun d h => w2 d (h3 d h), w3, fun hw => writeAll_all hw blobs s1⟩
      · by_cases hlen : blobs.length = upd.length
        · rw [if_neg (by simp [hlen]), if_neg (by simp [hlen])]
          refine ⟨_, _, rfl, by omega, h3, fun _ b hb => ?_, fun _ => hlen.symm⟩
          exact (h2 _ (covers h1 hsub (by rw [List.length_map]; omega) _ (List.mem_map_of_mem hb))).2
        · rw [if_pos (by simp [hu, hlen])]
          have hpos := List.length_pos_iff.mpr hu
          obtain ⟨m, s2, e, k1, k2, k3, k4⟩ := batchUpdate_spec hS n
            (blobs.filter (fun b => decide (dig b ∉ upd))) s1 (by omega) (hd.sublist (List.filter_sublist.map dig))
          rw [e]
          refine ⟨_, _, rfl, by omega, fun d h => k2 d (h3 d h), fun hall b hb => ?_, fun hw => ?_⟩
          · by_cases hbu : dig b ∈ upd
            · exact k2 _ (h2 _ hbu).2
            · exact k3 (by simp only at hall; omega) b (List.mem_filter.mpr ⟨hb, by simpa using hbu⟩)
          · have := k4 hw
            simp only
            omega

omit [DecidableEq δ] in
theorem writeLarge_spec (hS : S.Honest dig has) (large : β → Bool) : ∀ (l : List β) (s : σ),
    (∀ d, has s d → has (writeLarge S large l s).2 d) ∧
    ((writeLarge S large l s).1 = true → ∀ b ∈ l, large b = true → has (writeLarge S large l s).2 (dig b)) ∧
    ((∀ s b, (S.write s b).1 = true) → (writeLarge S large l s).1 = true)
  | [], s => ⟨fun _ h => h, (fun _ b hb => nomatch hb), fun _ => rfl⟩
  | b :: t, s => by
    rw [writeLarge]
    split
    · rename_i hl
      split
      · rename_i hw
        obtain ⟨h1, h2, h3⟩ := writeLarge_spec hS large t (S.write s b).2
        refine ⟨fun d h => h1 d (hS.write_keep _ _ _ h), fun e b' hb' hl' => ?_, h3⟩
        rcases List.mem_cons.mp hb' with rfl | hb'
        · exact h1 _ (hS.write_conf _ _ hw)
        · exact h2 e b' hb' hl'
      · rename_i hw
        exact ⟨fun d h => hS.write_keep _ _ _ h, (fun e => nomatch e), fun h => absurd (h s b) hw⟩
    · rename_i hl
      obtain ⟨h1, h2, h3⟩ := writeLarge_spec hS large t s
      refine ⟨h1, fun e b' hb' hl' => ?_, h3⟩
      rcases List.mem_cons.mp hb' with rfl | hb'
      · exact absurd hl' hl
      · exact h2 e b' hb' hl'

theorem doUpload_spec (hS : S.Honest dig has) (large : β → Bool) (blobs : List β) (hd : (blobs.map dig).Nodup) (s : σ) :
    ∃ ok s', doUpload L S dig large blobs s = some (ok, s') ∧ (∀ d, has s d → has s' d) ∧
      (ok = true → ∀ b ∈ blobs, has s' (dig b)) ∧ ((∀ s b, (S.write s b).1 = true) → ok = true) := by
  obtain ⟨h1, h2, h3⟩ := writeLarge_spec hS large blobs s
  unfold doUpload
  by_cases hw : (writeLarge S large blobs s).1 = true
  · rw [if_pos hw]
    obtain ⟨m, s2, e, _, k2, k3, k4⟩ := batchUpdate_spec (L := L) hS (blobs.length + 1) (blobs.filter (fun b => !large b))
      (writeLarge S large blobs s).2 (Nat.lt_succ_of_le (List.length_filter_le _ _))
      (hd.sublist (List.filter_sublist.map dig))
    rw [e]
    refine ⟨_, _, rfl, fun d h => k2 d (h1 d h), fun ok b hb => ?_, fun h => ?_⟩
    · by_cases hl : large b = true
      · exact k2 _ (h2 hw b hb hl)
      · exact k3 (by simpa using ok) b (List.mem_filter.mpr ⟨hb, by simpa using hl⟩)
    · simpa using k4 h
  · rw [if_neg hw]
    exact ⟨_, _, rfl, h1, (fun e => nomatch e), fun h => absurd (h3 h) hw⟩

/-- C67: if uploading a set of blobs is reported to have succeeded, then the server has each of them, whatever the
limits are, whichever requests failed or were answered in part, and whether or not blobs that are
already there are asked for first. -/
theorem C67_success (hS : S.Honest dig has) (large : β → Bool) (skip : Bool) (missing : List δ) (blobs : List β)
    (hd : (blobs.map dig).Nodup) (s s' : σ) (hmiss : skip = false → ∀ b ∈ blobs, dig b ∉ missing → has s (dig b))
    (h : uploadBlobs L S dig large skip missing blobs s = some (true, s')) : ∀ b ∈ blobs, has s' (dig b) := by
  intro b hb
  unfold uploadBlobs at h
  cases skip with
  | true =>
    obtain ⟨ok, s2, e, _, k, _⟩ := doUpload_spec (L := L) hS large blobs hd s
    rw [if_pos rfl, e] at h
    injection h with h
    injection h with h h'
    exact h' ▸ k h b hb
  | false =>
    obtain ⟨ok, s2, e, k0, k, _⟩ := doUpload_spec (L := L) hS large (blobs.filter (fun b => decide (dig b ∈ missing)))
      (hd.sublist (List.filter_sublist.map dig)) s
    rw [if_neg (by simp), e] at h
    injection h with h
    injection h with h h'
    subst h'
    by_cases hbm : dig b ∈ missing
    · exact k h b (List.mem_filter.mpr ⟨hb, by simpa using hbm⟩)
    · exact k0 _ (hmiss rfl b hb hbm)

/-- C67: if single blobs can be written, then the upload succeeds, whatever happens to batch requests. -/
theorem C67_complete (hS : S.Honest dig has) (hw : ∀ s b, (S.write s b).1 = true) (large : β → Bool) (skip : Bool)
    (missing : List δ) (blobs : List β) (hd : (blobs.map dig).Nodup) (s : σ) :
    ∃ s', uploadBlobs L S dig large skip missing blobs s = some (true, s') := by
  unfold uploadBlobs
  cases skip with
  | true =>
    obtain ⟨ok, s2, e, _, _, k⟩ := doUpload_spec (L := L) hS large blobs hd s
    rw [if_pos rfl, e, k hw]
    exact ⟨_, rfl⟩
  | false =>
    obtain ⟨ok, s2, e, _, _, k⟩ := doUpload_spec (L := L) hS large (blobs.filter (fun b => decide (dig b ∈ missing)))
      (hd.sublist (List.filter_sublist.map dig)) s
    rw [if_neg (by simp), e, k hw]
    exact ⟨_, rfl⟩

/-- C67: uploading ends, and nothing is lost, whether it succeeds or not. -/
theorem C67_ends (hS : S.Honest dig has) (large : β → Bool) (skip : Bool) (missing : List δ) (blobs : List β)
    (hd : (blobs.map dig).Nodup) (s : σ) :
    ∃ ok s', uploadBlobs L S dig large skip missing blobs s = some (ok, s') ∧ ∀ d, has s d → has s' d := by
  unfold uploadBlobs
  cases skip with
  | true =>
    obtain ⟨ok, s2, e, k, _⟩ := doUpload_spec (L := L) hS large blobs hd s
    rw [if_pos rfl, e]
    exact ⟨_, _, rfl, k⟩
  | false =>
    obtain ⟨ok, s2, e, k, _⟩ := doUpload_spec (L := L) hS large (blobs.filter (fun b => decide (dig b ∈ missing)))
      (hd.sublist (List.filter_sublist.map dig)) s
    rw [if_neg (by simp), e]
    exact ⟨_, _, rfl, k⟩

end

/-! ## Examples -/

/-- A server that stores and confirms only the first blob of each batch; its state is what it has. -/
def lazyServer : Server (List Nat) Nat Nat :=
  ⟨fun s r => (some (r.take 1), s ++ r.take 1), fun s b => (true, s ++ [b])⟩

theorem lazyServer_honest : lazyServer.Honest id (fun s d => d ∈ s) :=
  ⟨fun s r d h => List.mem_append_left _ h,
   fun s r c h d hd => by
    injection h with h
    rw [← h] at hd
    exact ⟨by rw [List.map_id]; exact List.mem_of_mem_take hd, List.mem_append_right _ hd⟩,
   fun s b d h => List.mem_append_left _ h, fun s b _ => List.mem_append_right _ (by simp)⟩

example : uploadBlobs ⟨fun l => 10 * l.length, fun _ => true, id, 25, some 100⟩ lazyServer id (fun b => decide (b > 1000)) false
    [1, 2, 3, 200, 2000] [1, 7, 2, 3, 200, 2000] [7] = some (true, [7, 2000, 1, 3, 2, 200]) := by decide

example : ∀ b ∈ [1, 7, 2, 3, 200, 2000], b ∈ [7, 2000, 1, 3, 2, 200] :=
  C67_success (L := ⟨fun l => 10 * l.length, fun _ => true, id, 25, some 100⟩) lazyServer_honest (fun b => decide (b > 1000)) false
    [1, 2, 3, 200, 2000] [1, 7, 2, 3, 200, 2000] (by decide) [7] _ (by decide) (by decide)

/-- Without the assumption that the digests are different, the upload could be reported to have failed although
the server confirmed all of it: here, a file and an executable with the same content. -/
example : (uploadBlobs (δ := Nat) (β := Nat × Bool) ⟨fun l => 10 * l.length, fun _ => true, Prod.fst, 25, none⟩
    ⟨fun s r => (some (r.map Prod.fst), s ++ r.map Prod.fst), fun s b => (true, s ++ [b.1])⟩ Prod.fst (fun _ => false) true []
    [(1, false), (1, true)] []).map Prod.fst = some false := by decide

end Verif.Remote
