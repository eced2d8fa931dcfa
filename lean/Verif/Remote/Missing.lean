import Mathlib.Data.List.Basic
import Mathlib.Data.List.Nodup

/-!
# Requests to the remote storage: C51, C67

Model of `src/buildtool/execution_api/remote/bazel/bazel_cas_client.cpp` (`InitRequest`, `FindMissingBlobs`,
`BatchUpdateBlobs`), of `src/buildtool/execution_api/remote/bazel/bazel_network.cpp` (`UploadBlobs`), and of
`src/utils/cpp/back_map.hpp`.
-/

namespace Verif.Remote

/-! ## Splitting into requests -/

/-- What determines how entries are put into requests: the length of a request with some entries
(`ByteSizeLong`), whether an entry can be put into a request at all (reading its content can fail), the size of its
content, the limit for the length and the optional limit for the content. -/
structure Limits (κ : Type) where
  bytes : List κ → Nat
  creatable : κ → Bool
  content : κ → Nat
  limit : Nat
  contentLimit : Option Nat

/-- bazel_cas_client.cpp:54-80 (`InitRequest`): the request, and what could not be put into it. -/
def initRequest {κ : Type} (L : Limits κ) : List κ → List κ → Nat → List κ × List κ
  | [], req, _ => (req, [])
  | k :: t, req, n =>
    if !L.creatable k then (req, k :: t)
    else if L.bytes req + L.bytes [k] > L.limit then (req, k :: t)
    else if L.contentLimit.any (fun c => decide (n + L.content k > c)) then (req, k :: t)
    else initRequest L t (req ++ [k]) (n + L.content k)

/-! ## Querying missing blobs -/

/-- The answer to a request, after retrying: the missing digests, a failure, or an exception while handling it
(such as missing memory). -/
inductive Answer (κ : Type)
  | ok (missing : List κ)
  | failed
  | thrown

/-- bazel_cas_client.cpp:343-404: the loop of `FindMissingBlobs`, with the requests sent so far and the keys reported
missing so far.  `srv` is what the server answers, depending on the requests before.  Each round handles at
least one key, so the number of keys is enough fuel. -/
def findLoop {κ : Type} (L : Limits κ) (srv : List (List κ) → List κ → Answer κ) :
    Nat → List κ → List (List κ) → List κ → List (List κ) × List κ
  | _, [], reqs, rep => (reqs, rep)
  | 0, _ :: _, reqs, rep => (reqs, rep)
  | n + 1, k :: t, reqs, rep =>
    if (initRequest L (k :: t) [] 0).1.isEmpty then findLoop L srv n t reqs (rep ++ [k])
    else
      match srv reqs (initRequest L (k :: t) [] 0).1 with
      | .ok m => findLoop L srv n (initRequest L (k :: t) [] 0).2 (reqs ++ [(initRequest L (k :: t) [] 0).1]) (rep ++ m)
      | .failed => findLoop L srv n (initRequest L (k :: t) [] 0).2 (reqs ++ [(initRequest L (k :: t) [] 0).1])
          (rep ++ (initRequest L (k :: t) [] 0).1)
      | .thrown => (reqs ++ [(initRequest L (k :: t) [] 0).1], rep)

variable {κ δ : Type} [DecidableEq κ]

/-- back_map.hpp:123-129 (`GetReference`), for the map made of `D` with `conv` (back_map.hpp:68-102): the first
value with this key. -/
def reference (conv : δ → κ) (D : List δ) (k : κ) : Option δ := D.find? (fun d => conv d = k)

/-- bazel_cas_client.cpp:323-417 (`FindMissingBlobs`): the requests that are sent and the digests reported missing.
`keys` are the keys of the map made of `D` with `conv`, in the order in which the unordered set is visited. -/
def findMissing (L : Limits κ) (srv : List (List κ) → List κ → Answer κ) (conv : δ → κ) (D : List δ) (keys : List κ) :
    List (List κ) × List δ :=
  ((findLoop L srv keys.length keys [] []).1,
    (findLoop L srv keys.length keys [] []).2.filterMap (reference conv D))

/-! ### Properties -/

omit [DecidableEq κ] in
/-- The request and the rest together are all entries, in order. -/
theorem initRequest_append (L : Limits κ) : ∀ (l req : List κ) (n : Nat),
    (initRequest L l req n).1 ++ (initRequest L l req n).2 = req ++ l
  | [], req, n => rfl
  | k :: t, req, n => by
    rw [initRequest]
    split
    · rfl
    · split
      · rfl
      · split
        · rfl
        · rw [initRequest_append L t]
          simp

omit [DecidableEq κ] in
/-- A request is not too long, if putting requests together does not make them longer. -/
theorem initRequest_bytes (L : Limits κ) (hadd : ∀ a k, L.bytes (a ++ [k]) ≤ L.bytes a + L.bytes [k]) :
    ∀ (l req : List κ) (n : Nat), L.bytes req ≤ L.limit → L.bytes (initRequest L l req n).1 ≤ L.limit
  | [], req, n, h => h
  | k :: t, req, n, h => by
    rw [initRequest]
    split
    · exact h
    · split
      · exact h
      · rename_i hb
        split
        · exact h
        · exact initRequest_bytes L hadd t _ _ (Nat.le_trans (hadd req k) (by omega))

omit [DecidableEq κ] in
/-- The contents of a request are within the limit. -/
theorem initRequest_content (L : Limits κ) (c : Nat) (hc : L.contentLimit = some c) :
    ∀ (l req : List κ), (req.map L.content).sum ≤ c →
      ((initRequest L l req (req.map L.content).sum).1.map L.content).sum ≤ c
  | [], req, h => h
  | k :: t, req, h => by
    rw [initRequest]
    split
    · exact h
    · split
      · exact h
      · split
        · exact h
        · rename_i hcon
          rw [hc] at hcon
          simp only [Option.any_some, decide_eq_true_eq] at hcon
          have e : ((req ++ [k]).map L.content).sum = (req.map L.content).sum + L.content k := by simp
          have := initRequest_content L c hc t (req ++ [k]) (by rw [e]; omega)
          rwa [e] at this

omit [DecidableEq κ] in
/-- If there is no progress, the first entry does not fit into any request. -/
theorem initRequest_empty (L : Limits κ) (k : κ) (t : List κ) (h : (initRequest L (k :: t) [] 0).1 = []) :
    L.creatable k = false ∨ L.bytes [] + L.bytes [k] > L.limit ∨ ∃ c, L.contentLimit = some c ∧ L.content k > c := by
  rw [initRequest] at h
  split at h
  · rename_i hcr
    exact .inl (by simpa using hcr)
  · split at h
    · rename_i hb
      exact .inr (.inl hb)
    · split at h
      · rename_i hcon
        cases hcl : L.contentLimit with
        | none =>
          rw [hcl] at hcon
          exact nomatch hcon
        | some c =>
          rw [hcl] at hcon
          simp only [Option.any_some, decide_eq_true_eq] at hcon
          exact .inr (.inr ⟨c, rfl, by omega⟩)
      · have := initRequest_append L t ([] ++ [k]) (0 + L.content k)
        rw [h] at this
        exfalso
        have hlen := congrArg List.length this
        have hrest : ∀ (l req : List κ) n, req.length ≤ (initRequest L l req n).1.length := by
          intro l
          induction l with
          | nil => exact fun req n => Nat.le_refl _
          | cons x l ih =>
            intro req n
            rw [initRequest]
            split
            · exact Nat.le_refl _
            · split
              · exact Nat.le_refl _
              · split
                · exact Nat.le_refl _
                · have := ih (req ++ [x]) (n + L.content x)
                  rw [List.length_append] at this
                  exact Nat.le_trans (Nat.le_add_right _ _) this
        have := hrest t ([] ++ [k]) (0 + L.content k)
        rw [h] at this
        exact absurd this (by simp)

omit [DecidableEq κ] in
theorem initRequest_rest (L : Limits κ) (k : κ) (t : List κ) (h : (initRequest L (k :: t) [] 0).1 ≠ []) :
    (initRequest L (k :: t) [] 0).2.length ≤ t.length := by
  have := congrArg List.length (initRequest_append L (k :: t) [] 0)
  simp only [List.length_append, List.nil_append, List.length_cons] at this
  have := List.length_pos_iff.mpr h
  omega

omit [DecidableEq κ] in
/-- The loop: which requests are sent and what is reported, if there is no exception. -/
theorem findLoop_spec (L : Limits κ) (srv : List (List κ) → List κ → Answer κ)
    (hthrow : ∀ h r, srv h r ≠ .thrown) :
    ∀ (n : Nat) (keys : List κ) (reqs : List (List κ)) (rep : List κ), keys.length ≤ n →
      ∃ new skipped, (findLoop L srv n keys reqs rep).1 = reqs ++ new ∧
        (new.flatten ++ skipped).Perm keys ∧ (∀ r ∈ new, r ≠ []) ∧
        (∀ r ∈ new, ∃ l, r = (initRequest L l [] 0).1) ∧
        (∀ x ∈ rep, x ∈ (findLoop L srv n keys reqs rep).2) ∧
        (∀ x ∈ skipped, x ∈ (findLoop L srv n keys reqs rep).2) ∧
        (∀ a r b, new = a ++ r :: b → srv (reqs ++ a) r = .failed → ∀ x ∈ r, x ∈ (findLoop L srv n keys reqs rep).2) ∧
        (∀ a r b m, new = a ++ r :: b → srv (reqs ++ a) r = .ok m → ∀ x ∈ m, x ∈ (findLoop L srv n keys reqs rep).2)
  | n, [], reqs, rep, _ => by
    have e : findLoop L srv n [] reqs rep = (reqs, rep) := by cases n <;> rfl
    rw [e]
    exact ⟨[], [], by simp, by simp, by simp, by simp, fun x hx => hx, by simp, by simp, by simp⟩
  | n + 1, k :: t, reqs, rep, hn => by
    rw [List.length_cons] at hn
    rw [findLoop]
    by_cases he : (initRequest L (k :: t) [] 0).1 = []
    · rw [if_pos (by rw [he]; rfl)]
      obtain ⟨new, sk, h1, h2, h3, h3', h4, h5, h6, h7⟩ := findLoop_spec L srv hthrow n t reqs (rep ++ [k]) (by omega)
      refine ⟨new, k :: sk, h1, ?_, h3, h3', fun x hx => h4 x (by simp [hx]), fun x hx => ?_, h6, h7⟩
      · exact List.perm_middle.trans (h2.cons k)
      · rcases List.mem_cons.mp hx with rfl | hx
        · exact h4 x (by simp)
        · exact h5 x hx
    · rw [if_neg (by rw [List.isEmpty_iff]; exact he)]
      have happ := initRequest_append L (k :: t) [] 0
      have hlen := initRequest_rest L k t he
      have hinit : ∃ l, (initRequest L (k :: t) [] 0).1 = (initRequest L l [] 0).1 := ⟨_, rfl⟩
      generalize (initRequest L (k :: t) [] 0).1 = req at he happ hinit
      generalize (initRequest L (k :: t) [] 0).2 = rest at happ hlen
      rw [List.nil_append] at happ
      have common : ∀ (rep' : List κ) (hrep : ∀ x ∈ rep, x ∈ rep')
          (hf : srv reqs req = .failed → ∀ x ∈ req, x ∈ rep')
          (ho : ∀ m, srv reqs req = .ok m → ∀ x ∈ m, x ∈ rep'),
          ∃ new skipped, (findLoop L srv n rest (reqs ++ [req]) rep').1 = reqs ++ new ∧
            (new.flatten ++ skipped).Perm (k :: t) ∧ (∀ r ∈ new, r ≠ []) ∧
            (∀ r ∈ new, ∃ l, r = (initRequest L l [] 0).1) ∧
            (∀ x ∈ rep, x ∈ (findLoop L srv n rest (reqs ++ [req]) rep').2) ∧
            (∀ x ∈ skipped, x ∈ (findLoop L srv n rest (reqs ++ [req]) rep').2) ∧
            (∀ a r b, new = a ++ r :: b → srv (reqs ++ a) r = .failed →
              ∀ x ∈ r, x ∈ (findLoop L srv n rest (reqs ++ [req]) rep').2) ∧
            (∀ a r b m, new = a ++ r :: b → srv (reqs ++ a) r = .ok m →
              ∀ x ∈ m, x ∈ (findLoop L srv n rest (reqs ++ [req]) rep').2) := by
        intro rep' hrep hf ho
        obtain ⟨new, sk, h1, h2, h3, h3', h4, h5, h6, h7⟩ :=
          findLoop_spec L srv hthrow n rest (reqs ++ [req]) rep' (by omega)
        refine ⟨req :: new, sk, by rw [h1]; simp, ?_, ?_, ?_, fun x hx => h4 x (hrep x hx), h5, ?_, ?_⟩
        · rw [List.flatten_cons, List.append_assoc, ← happ]
          exact h2.append_left req
        · intro r hr
          rcases List.mem_cons.mp hr with rfl | hr
          · exact he
          · exact h3 r hr
        · intro r hr
          rcases List.mem_cons.mp hr with rfl | hr
          · exact hinit
          · exact h3' r hr
        · intro a r b e hs x hx
          cases a with
          | nil =>
            injection e with e1 _
            rw [List.append_nil] at hs
            rw [← e1] at hs hx
            exact h4 x (hf hs x hx)
          | cons y a =>
            injection e with e1 e2
            refine h6 a r b e2 ?_ x hx
            rw [← e1] at hs
            rw [List.append_assoc]
            exact hs
        · intro a r b m e hs x hx
          cases a with
          | nil =>
            injection e with e1 _
            rw [List.append_nil] at hs
            rw [← e1] at hs
            exact h4 x (ho m hs x hx)
          | cons y a =>
            injection e with e1 e2
            refine h7 a r b m e2 ?_ x hx
            rw [← e1] at hs
            rw [List.append_assoc]
            exact hs
      obtain ⟨ans, hans⟩ : ∃ ans, srv reqs req = ans := ⟨_, rfl⟩
      cases ans with
      | thrown => exact absurd hans (hthrow _ _)
      | ok m =>
        simp only [hans]
        refine common (rep ++ m) (fun x hx => by simp [hx]) (fun h => ?_) (fun m' h x hx => ?_)
        · rw [hans] at h
          exact nomatch h
        · rw [hans] at h
          injection h with h
          rw [← h] at hx
          simp [hx]
      | failed =>
        simp only [hans]
        refine common (rep ++ req) (fun x hx => by simp [hx]) (fun _ x hx => by simp [hx]) (fun m' h x hx => ?_)
        rw [hans] at h
        exact nomatch h

/-- What is needed of the way digests are put into requests: different digests stay different, and the keys are
exactly theirs, each once. -/
structure Keys (conv : δ → κ) (D : List δ) (keys : List κ) : Prop where
  inj : ∀ d ∈ D, ∀ d' ∈ D, conv d = conv d' → d = d'
  mem : ∀ k, k ∈ keys ↔ ∃ d ∈ D, conv d = k
  nodup : keys.Nodup

theorem reference_iff {conv : δ → κ} {D : List δ} (hinj : ∀ d ∈ D, ∀ d' ∈ D, conv d = conv d' → d = d') {k : κ} {d : δ} :
    reference conv D k = some d ↔ d ∈ D ∧ conv d = k := by
  unfold reference
  constructor
  · intro h
    exact ⟨List.mem_of_find?_eq_some h, by simpa using List.find?_some h⟩
  · rintro ⟨h1, h2⟩
    obtain ⟨d', hd'⟩ : ∃ d', D.find? (fun d => conv d = k) = some d' := by
      rw [← Option.isSome_iff_exists, List.find?_isSome]
      exact ⟨d, h1, by simpa using h2⟩
    rw [hd', hinj d' (List.mem_of_find?_eq_some hd') d h1 (by rw [h2]; simpa using List.find?_some hd')]

/-- C51: a digest that is not reported missing was in a request that the server has answered, and the server did
not list it as missing.  So whatever requests fail, all digests that the server would list are
reported. -/
theorem C51_missing_partial (L : Limits κ) (srv : List (List κ) → List κ → Answer κ) (hthrow : ∀ h r, srv h r ≠ .thrown)
    (conv : δ → κ) (D : List δ) (keys : List κ) (hk : Keys conv D keys) (d : δ) (hd : d ∈ D)
    (hr : d ∉ (findMissing L srv conv D keys).2) :
    ∃ before req after m, (findMissing L srv conv D keys).1 = before ++ req :: after ∧ conv d ∈ req ∧
      srv before req = .ok m ∧ conv d ∉ m := by
  obtain ⟨new, sk, h1, h2, _, _, h4, h5, h6, h7⟩ := findLoop_spec L srv hthrow keys.length keys [] [] (Nat.le_refl _)
  have hnot : conv d ∉ (findLoop L srv keys.length keys [] []).2 := fun h =>
    hr (List.mem_filterMap.mpr ⟨conv d, h, (reference_iff hk.inj).mpr ⟨hd, rfl⟩⟩)
  have hin : conv d ∈ new.flatten ++ sk := h2.mem_iff.mpr ((hk.mem _).mpr ⟨d, hd, rfl⟩)
  rcases List.mem_append.mp hin with hin | hin
  · obtain ⟨req, hreq, hx⟩ := List.mem_flatten.mp hin
    obtain ⟨a, b, e⟩ := List.append_of_mem hreq
    refine ⟨a, req, b, ?_⟩
    have e' : (findMissing L srv conv D keys).1 = a ++ req :: b := by
      unfold findMissing
      rw [h1, List.nil_append]
      exact e
    have g6 := h6 a req b e
    have g7 := fun m => h7 a req b m e
    rw [List.nil_append] at g6 g7
    cases hs : srv a req with
    | thrown => exact absurd hs (hthrow _ _)
    | failed => exact absurd (g6 hs _ hx) hnot
    | ok m => exact ⟨m, e', hx, rfl, fun h => hnot (g7 m hs _ h)⟩
  · exact absurd (h5 _ hin) hnot

/-- C51: only digests that were asked for are reported. -/
theorem C51_sound (L : Limits κ) (srv : List (List κ) → List κ → Answer κ) (conv : δ → κ) (D : List δ) (keys : List κ) :
    ∀ d ∈ (findMissing L srv conv D keys).2, d ∈ D := by
  intro d hd
  obtain ⟨k, _, h⟩ := List.mem_filterMap.mp hd
  exact List.mem_of_find?_eq_some h

/-- C51: each digest is in at most one request, and requests are not empty and not too long. -/
theorem C51_requests_partial (L : Limits κ) (srv : List (List κ) → List κ → Answer κ) (hthrow : ∀ h r, srv h r ≠ .thrown)
    (h0 : L.bytes [] ≤ L.limit) (hadd : ∀ a k, L.bytes (a ++ [k]) ≤ L.bytes a + L.bytes [k]) (conv : δ → κ) (D : List δ)
    (keys : List κ) (hk : Keys conv D keys) :
    (findMissing L srv conv D keys).1.flatten.Nodup ∧
    (∀ k ∈ (findMissing L srv conv D keys).1.flatten, k ∈ keys) ∧
    ∀ req ∈ (findMissing L srv conv D keys).1, req ≠ [] ∧ L.bytes req ≤ L.limit := by
  obtain ⟨new, sk, h1, h2, h3, h3', _⟩ := findLoop_spec L srv hthrow keys.length keys [] [] (Nat.le_refl _)
  unfold findMissing
  simp only
  rw [h1, List.nil_append]
  refine ⟨?_, fun k hkm => h2.mem_iff.mp (List.mem_append_left _ hkm), fun req hreq => ⟨h3 req hreq, ?_⟩⟩
  · exact (List.nodup_append.mp (h2.nodup_iff.mpr hk.nodup)).1
  · obtain ⟨l, rfl⟩ := h3' req hreq
    exact initRequest_bytes L hadd l [] 0 h0

/-- C51 does not hold if there is an exception: then what was not yet asked is taken to be available. -/
theorem C51_violation_exception : ∃ (L : Limits Nat) (srv : List (List Nat) → List Nat → Answer Nat),
    Keys (κ := Nat) id [1, 2] [1, 2] ∧ (findMissing L srv id [1, 2] [1, 2]).1 = [[1]] ∧
    2 ∉ (findMissing L srv id [1, 2] [1, 2]).2 :=
  ⟨⟨fun l => 10 * l.length, fun _ => true, fun _ => 0, 15, none⟩, fun _ _ => .thrown,
    ⟨fun _ _ _ _ h => h, fun k => by simp [eq_comm], by decide⟩, by decide, by decide⟩

/-- For examples: each request has at most two digests, and the second request fails. -/
def exampleLimits : Limits Nat := ⟨fun l => 10 * l.length, fun k => k != 9, fun _ => 0, 25, none⟩

def exampleServer (h : List (List Nat)) (r : List Nat) : Answer Nat :=
  if h.length = 1 then .failed else .ok (r.filter (fun k => k % 2 = 0))

example : findMissing exampleLimits exampleServer id [1, 2, 3, 4, 9, 5, 6] [1, 2, 3, 4, 9, 5, 6] =
    ([[1, 2], [3, 4], [5, 6]], [2, 3, 4, 9, 6]) := by decide

example : ∃ before req after m, (findMissing exampleLimits exampleServer id [1, 2, 3, 4, 9, 5, 6] [1, 2, 3, 4, 9, 5, 6]).1 =
    before ++ req :: after ∧ id 5 ∈ req ∧ exampleServer before req = .ok m ∧ id 5 ∉ m :=
  C51_missing_partial exampleLimits exampleServer (fun h r => by unfold exampleServer; split <;> exact fun e => nomatch e) id
    [1, 2, 3, 4, 9, 5, 6] [1, 2, 3, 4, 9, 5, 6] ⟨fun _ _ _ _ h => h, fun k => by simp [eq_comm], by decide⟩ 5 (by decide) (by decide)

end Verif.Remote
