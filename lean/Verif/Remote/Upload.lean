import Verif.Remote.Batch

/-!
# Uploads keep the remote storage closed: C36

Model of `CommonUploadBlobTree`, `CommonUploadTreeNative` and `CommonUploadTreeCompatible` in
`src/buildtool/execution_api/common/common_api.cpp`, of `GitApi::RetrieveToCas` in
`src/buildtool/execution_api/git/git_api.cpp`, of `LocalApi::RetrieveToCas` in
`src/buildtool/execution_api/local/local_api.cpp`, and of `VerifyOrUploadTree` in
`src/buildtool/execution_engine/executor/executor.hpp`.

The remote storage is the list of the objects it has, in the order in which they were stored; so it can be looked at
at any moment in between.
-/

namespace Verif.Remote.Upload

open Verif.Remote

variable {δ : Type} [DecidableEq δ]

/-- The objects that are uploaded: which are trees, the objects of a tree that are to be processed before
it, if its content can be read, and its size. -/
structure Source (δ : Type) where
  tree : δ → Bool
  sub : δ → List δ
  readable : δ → Bool
  size : δ → Nat

/-- The other side: the answer to `GetMissingDigests`, and to `Upload`. -/
structure Peer (δ : Type) where
  missing : List δ → List δ → List δ
  up : List δ → List δ → Bool × List δ

/-- common_api.cpp:122-140, git_api.cpp:192-250: the missing objects, where trees are processed with `rec` before they are
put into the container. local_api.cpp:179-209 is the same with all sizes taken as zero, as there everything is
uploaded in the end.  `none` is for more recursive calls. -/
def loop (S : Source δ) (R : Peer δ) (lim : Nat) (rec : List δ → List δ → Option (Bool × List δ)) :
    List δ → List δ → List δ → Option (Bool × List δ)
  | [], c, s => some (R.up s c)
  | d :: t, c, s =>
    match (if S.tree d then rec (S.sub d) s else some (true, s)) with
    | none => none
    | some (false, s') => some (false, s')
    | some (true, s') =>
      if S.readable d then
        if (update S.size lim R.up c s' d).1 then
          loop S R lim rec t (update S.size lim R.up c s' d).2.1 (update S.size lim R.up c s' d).2.2
        else some (false, (update S.size lim R.up c s' d).2.2)
      else some (false, s')

/-- common_api.cpp:102-141 (`CommonUploadBlobTree`), git_api.cpp:170-251, local_api.cpp:151-210 (`RetrieveToCas`): upload the
objects `req`, to the storage `s`; with a bound for the depth of recursion. -/
def upload (S : Source δ) (R : Peer δ) (lim : Nat) : Nat → List δ → List δ → Option (Bool × List δ)
  | 0, _, _ => none
  | n + 1, req, s => loop S R lim (upload S R lim n) (R.missing s req) [] s

/-- executor.hpp:415-424: first process all missing trees. -/
def trees (S : Source δ) (rec : List δ → List δ → Option (Bool × List δ)) : List δ → List δ → Option (Bool × List δ)
  | [], s => some (true, s)
  | d :: t, s =>
    match (if S.tree d then rec (S.sub d) s else some (true, s)) with
    | none => none
    | some (false, s') => some (false, s')
    | some (true, s') => trees S rec t s'

/-- executor.hpp:426-454: then upload all missing objects. -/
def objects (S : Source δ) (R : Peer δ) (lim : Nat) : List δ → List δ → List δ → Bool × List δ
  | [], c, s => R.up s c
  | d :: t, c, s =>
    if S.readable d then
      if (update S.size lim R.up c s d).1 then
        objects S R lim t (update S.size lim R.up c s d).2.1 (update S.size lim R.up c s d).2.2
      else (false, (update S.size lim R.up c s d).2.2)
    else (false, s)

/-- executor.hpp:391-465 (`VerifyOrUploadTree`), for the entries `req` of a tree. -/
def verifyOrUpload (S : Source δ) (R : Peer δ) (lim : Nat) : Nat → List δ → List δ → Option (Bool × List δ)
  | 0, _, _ => none
  | n + 1, req, s =>
    match trees S (verifyOrUpload S R lim n) (R.missing s req) s with
    | none => none
    | some (false, s') => some (false, s')
    | some (true, s') => some (objects S R lim (R.missing s req) [] s')

/-- common_api.cpp:179-205 (`CommonUploadTreeNative`), with the answer to `IsAvailable`, if the blob tree could be
created. -/
def uploadTree (S : Source δ) (R : Peer δ) (lim : Nat) (n : Nat) (available : Bool) (root : δ) (s : List δ) :
    Option (Bool × List δ) :=
  if available then some (true, s)
  else
    match upload S R lim n (S.sub root) s with
    | none => none
    | some (false, s') => some (false, s')
    | some (true, s') => some (R.up s' [root])

/-! ## Properties -/

/-- What the other side is assumed to do: of what is asked, everything is reported missing that is not there (see
C51); an upload stores some of the blobs, in any order, possibly stopping at any moment, and reports success only if
all are there (see C67). -/
structure Peer.OK (R : Peer δ) : Prop where
  missing_sub : ∀ s req, ∀ d ∈ R.missing s req, d ∈ req
  missing_all : ∀ s req, ∀ d ∈ req, d ∉ R.missing s req → d ∈ s
  up_some : ∀ s b, ∃ stored, (R.up s b).2 = s ++ stored ∧ ∀ d ∈ stored, d ∈ b
  up_ok : ∀ s b, (R.up s b).1 = true → ∀ d ∈ b, d ∈ (R.up s b).2

/-- Each object comes with everything it refers to. -/
def Closed (kids : δ → List δ) (s : List δ) : Prop := ∀ d ∈ s, ∀ k ∈ kids d, k ∈ s

/-- From `s` to `s'`, each object is stored only when everything it refers to is already there. -/
def Grows (kids : δ → List δ) (s s' : List δ) : Prop :=
  ∃ ext, s' = s ++ ext ∧ ∀ a d b, ext = a ++ d :: b → ∀ k ∈ kids d, k ∈ s ++ a

/-- The objects that are reached from `l`. -/
inductive Below (next : δ → List δ) (l : List δ) : δ → Prop
  | root {d} : d ∈ l → Below next l d
  | step {d k} : Below next l d → k ∈ next d → Below next l k

section
omit [DecidableEq δ]
variable {kids : δ → List δ}

theorem Grows.refl (s : List δ) : Grows kids s s :=
  ⟨[], by simp, fun a d b e => absurd e (by simp)⟩

theorem Grows.mem {s s' : List δ} (h : Grows kids s s') {d : δ} (hd : d ∈ s) : d ∈ s' := by
  obtain ⟨ext, rfl, _⟩ := h
  exact List.mem_append_left _ hd

theorem Grows.trans {s s' s'' : List δ} (h : Grows kids s s') (h' : Grows kids s' s'') : Grows kids s s'' := by
  obtain ⟨e1, rfl, h1⟩ := h
  obtain ⟨e2, rfl, h2⟩ := h'
  refine ⟨e1 ++ e2, by simp, fun a d b e k hk => ?_⟩
  rcases List.append_eq_append_iff.mp e with ⟨m, hm1, hm2⟩ | ⟨m, hm1, hm2⟩
  · subst hm1
    rw [← List.append_assoc]
    exact h2 m d b hm2 k hk
  · cases m with
    | nil =>
      rw [List.append_nil] at hm1
      rw [List.nil_append] at hm2
      have := h2 [] d b hm2.symm k hk
      rwa [List.append_nil, hm1] at this
    | cons x m =>
      rw [List.cons_append] at hm2
      injection hm2 with hx _
      subst hx
      exact h1 a d m hm1 k hk

theorem Grows.closed {s s' : List δ} (hc : Closed kids s) (h : Grows kids s s') : Closed kids s' := by
  obtain ⟨ext, rfl, he⟩ := h
  intro d hd k hk
  rcases List.mem_append.mp hd with hd | hd
  · exact List.mem_append_left _ (hc d hd k hk)
  · obtain ⟨a, b, e⟩ := List.append_of_mem hd
    have := he a d b e k hk
    rw [e]
    rcases List.mem_append.mp this with h | h
    · exact List.mem_append_left _ h
    · exact List.mem_append_right _ (List.mem_append_left _ h)

theorem Grows.prefix {s s' : List δ} (h : Grows kids s s') :
    ∃ ext, s' = s ++ ext ∧ ∀ p q, ext = p ++ q → Grows kids s (s ++ p) := by
  obtain ⟨ext, e, he⟩ := h
  refine ⟨ext, e, fun p q hpq => ⟨p, rfl, fun a d b hp => he a d (b ++ q) ?_⟩⟩
  rw [hpq, hp]
  simp

theorem Closed.below {s : List δ} (hc : Closed kids s) {l : List δ} (hl : ∀ d ∈ l, d ∈ s) {d : δ} (h : Below kids l d) :
    d ∈ s := by
  induction h with
  | root h => exact hl _ h
  | step _ hk ih => exact hc _ ih _ hk

theorem Below.trans {next : δ → List δ} {l m : List δ} (h : ∀ d ∈ m, Below next l d) {d : δ} (hd : Below next m d) :
    Below next l d := by
  induction hd with
  | root hm => exact h _ hm
  | step _ hk ih => exact .step ih hk

end

section
variable {S : Source δ} {R : Peer δ} {kids : δ → List δ} {lim : Nat}

omit [DecidableEq δ] in
theorem up_grows (hR : R.OK) {s b : List δ} (hb : ∀ d ∈ b, ∀ k ∈ kids d, k ∈ s) : Grows kids s (R.up s b).2 := by
  obtain ⟨stored, e, hs⟩ := hR.up_some s b
  refine ⟨stored, e, fun a d t he k hk => List.mem_append_left _ (hb d (hs d ?_) k hk)⟩
  rw [he]
  simp

/-- One step of the container. -/
theorem update_grows (hR : R.OK) {c s : List δ} {d : δ} (hc : ∀ x ∈ c, ∀ k ∈ kids x, k ∈ s) (hd : ∀ k ∈ kids d, k ∈ s) :
    Grows kids s (update S.size lim R.up c s d).2.2 ∧
    (∀ x ∈ (update S.size lim R.up c s d).2.1, ∀ k ∈ kids x, k ∈ s) ∧
    ((update S.size lim R.up c s d).1 = true → ∀ x, (x ∈ c ∨ x = d) →
      x ∈ (update S.size lim R.up c s d).2.2 ∨ x ∈ (update S.size lim R.up c s d).2.1) := by
  unfold update
  by_cases h1 : S.size d > lim
  · rw [if_pos h1]
    refine ⟨up_grows hR (by simpa using hd), hc, fun ok x hx => ?_⟩
    rcases hx with hx | rfl
    · exact .inr hx
    · exact .inl (hR.up_ok s [x] ok x (by simp))
  · rw [if_neg h1]
    by_cases h2 : d ∈ c
    · rw [if_pos h2]
      refine ⟨.refl s, hc, fun _ x hx => ?_⟩
      rcases hx with hx | rfl
      · exact .inr hx
      · exact .inr h2
    · rw [if_neg h2]
      by_cases h3 : total S.size c + S.size d > lim
      · rw [if_pos h3]
        by_cases h4 : (R.up s c).1 = true
        · rw [if_pos h4]
          refine ⟨up_grows hR hc, by simpa using hd, fun _ x hx => ?_⟩
          rcases hx with hx | rfl
          · exact .inl (hR.up_ok s c h4 x hx)
          · exact .inr (by simp)
        · rw [if_neg h4]
          exact ⟨up_grows hR hc, (fun x hx => nomatch hx), fun e => nomatch e⟩
      · rw [if_neg h3]
        refine ⟨.refl s, fun x hx => ?_, fun _ x hx => ?_⟩
        · rcases List.mem_cons.mp hx with rfl | hx
          · exact hd
          · exact hc x hx
        · rcases hx with hx | rfl
          · exact .inr (List.mem_cons_of_mem _ hx)
          · exact .inr (by simp)

/-- What is asked of the recursive call. -/
def Spec (P : δ → Prop) (s0 : List δ) (kids : δ → List δ) (rec : List δ → List δ → Option (Bool × List δ)) : Prop :=
  ∀ req s ok s', (∀ d ∈ req, P d) → (∀ d ∈ s0, d ∈ s) → rec req s = some (ok, s') →
    Grows kids s s' ∧ (ok = true → ∀ d ∈ req, d ∈ s')

omit [DecidableEq δ] in
/-- Processing a tree, or not, before its object. -/
theorem before {P : δ → Prop} {s0 : List δ} {rec : List δ → List δ → Option (Bool × List δ)} (hrec : Spec P s0 kids rec)
    (hsub : ∀ d, P d → S.tree d = true → ∀ k ∈ S.sub d, P k)
    (hkids : ∀ d, P d → ∀ k ∈ kids d, (S.tree d = true ∧ k ∈ S.sub d) ∨ k ∈ s0) {d : δ} (hd : P d) {s : List δ}
    (hs : ∀ x ∈ s0, x ∈ s) {ok : Bool} {s' : List δ}
    (h : (if S.tree d then rec (S.sub d) s else some (true, s)) = some (ok, s')) :
    Grows kids s s' ∧ (ok = true → ∀ k ∈ kids d, k ∈ s') := by
  by_cases ht : S.tree d = true
  · rw [if_pos ht] at h
    obtain ⟨h1, h2⟩ := hrec _ _ _ _ (hsub d hd ht) hs h
    refine ⟨h1, fun hok k hk => ?_⟩
    rcases hkids d hd k hk with ⟨_, hk⟩ | hk
    · exact h2 hok k hk
    · exact h1.mem (hs k hk)
  · rw [if_neg ht] at h
    injection h with h
    injection h with h1 h2
    subst h2
    refine ⟨.refl _, fun _ k hk => ?_⟩
    rcases hkids d hd k hk with ⟨ht', _⟩ | hk
    · exact absurd ht' ht
    · exact hs k hk

theorem loop_spec (hR : R.OK) {P : δ → Prop} {s0 : List δ} {rec : List δ → List δ → Option (Bool × List δ)}
    (hrec : Spec P s0 kids rec) (hsub : ∀ d, P d → S.tree d = true → ∀ k ∈ S.sub d, P k)
    (hkids : ∀ d, P d → ∀ k ∈ kids d, (S.tree d = true ∧ k ∈ S.sub d) ∨ k ∈ s0) :
    ∀ (l c s : List δ) (ok : Bool) (s' : List δ), (∀ d ∈ l, P d) → (∀ d ∈ s0, d ∈ s) →
      (∀ d ∈ c, ∀ k ∈ kids d, k ∈ s) → loop S R lim rec l c s = some (ok, s') →
      Grows kids s s' ∧ (ok = true → ∀ d, (d ∈ c ∨ d ∈ l) → d ∈ s')
  | [], c, s, ok, s', _, _, hc, h => by
    rw [loop] at h
    injection h with h
    have e1 : (R.up s c).1 = ok := by rw [h]
    have e2 : (R.up s c).2 = s' := by rw [h]
    subst e1 e2
    refine ⟨up_grows hR hc, fun ok d hd => ?_⟩
    rcases hd with hd | hd
    · exact hR.up_ok s c ok d hd
    · exact nomatch hd
  | d :: t, c, s, ok, s', hP, hs, hc, h => by
    rw [loop] at h
    obtain ⟨o, ho⟩ : ∃ o, (if S.tree d then rec (S.sub d) s else some (true, s)) = o := ⟨_, rfl⟩
    rw [ho] at h
    match o, ho, h with
    | none, _, h => exact nomatch h
    | some (false, s1), ho, h =>
      injection h with h
      injection h with h1 h2
      subst h1 h2
      exact ⟨(before hrec hsub hkids (hP d (by simp)) hs ho).1, fun e => nomatch e⟩
    | some (true, s1), ho, h =>
      obtain ⟨g1, g2⟩ := before hrec hsub hkids (hP d (by simp)) hs ho
      have hc1 : ∀ x ∈ c, ∀ k ∈ kids x, k ∈ s1 := fun x hx k hk => g1.mem (hc x hx k hk)
      obtain ⟨u1, u2, u3⟩ := update_grows (S := S) (lim := lim) hR hc1 (g2 rfl)
      simp only at h
      by_cases hr : S.readable d = true
      · rw [if_pos hr] at h
        by_cases hu : (update S.size lim R.up c s1 d).1 = true
        · rw [if_pos hu] at h
          obtain ⟨k1, k2⟩ := loop_spec hR hrec hsub hkids t _ _ ok s' (fun x hx => hP x (List.mem_cons_of_mem _ hx))
            (fun x hx => u1.mem (g1.mem (hs x hx))) (fun x hx k hk => u1.mem (u2 x hx k hk)) h
          refine ⟨(g1.trans u1).trans k1, fun hok x hx => ?_⟩
          have hx' : (x ∈ c ∨ x = d) ∨ x ∈ t := by
            rcases hx with hx | hx
            · exact .inl (.inl hx)
            · rcases List.mem_cons.mp hx with hx | hx
              · exact .inl (.inr hx)
              · exact .inr hx
          rcases hx' with hx | hx
          · rcases u3 hu x hx with h | h
            · exact k1.mem h
            · exact k2 hok x (.inl h)
          · exact k2 hok x (.inr hx)
        · rw [if_neg hu] at h
          injection h with h
          injection h with h1 h2
          subst h1 h2
          exact ⟨g1.trans u1, fun e => nomatch e⟩
      · rw [if_neg hr] at h
        injection h with h
        injection h with h1 h2
        subst h1 h2
        exact ⟨g1, fun e => nomatch e⟩

theorem upload_spec (hR : R.OK) {P : δ → Prop} {s0 : List δ}
    (hsub : ∀ d, P d → S.tree d = true → ∀ k ∈ S.sub d, P k)
    (hkids : ∀ d, P d → ∀ k ∈ kids d, (S.tree d = true ∧ k ∈ S.sub d) ∨ k ∈ s0) :
    ∀ n, Spec P s0 kids (upload S R lim n)
  | 0 => fun _ _ _ _ _ _ h => nomatch h
  | n + 1 => by
    intro req s ok s' hP hs h
    rw [upload] at h
    obtain ⟨h1, h2⟩ := loop_spec hR (upload_spec hR hsub hkids n) hsub hkids (R.missing s req) [] s ok s'
      (fun d hd => hP d (hR.missing_sub s req d hd)) hs (fun d hd => nomatch hd) h
    refine ⟨h1, fun hok d hd => ?_⟩
    by_cases hm : d ∈ R.missing s req
    · exact h2 hok d (.inr hm)
    · exact h1.mem (hR.missing_all s req d hd hm)

omit [DecidableEq δ] in
theorem trees_spec {P : δ → Prop} {s0 : List δ} {rec : List δ → List δ → Option (Bool × List δ)}
    (hrec : Spec P s0 kids rec) (hsub : ∀ d, P d → S.tree d = true → ∀ k ∈ S.sub d, P k)
    (hkids : ∀ d, P d → ∀ k ∈ kids d, (S.tree d = true ∧ k ∈ S.sub d) ∨ k ∈ s0) :
    ∀ (l s : List δ) (ok : Bool) (s' : List δ), (∀ d ∈ l, P d) → (∀ d ∈ s0, d ∈ s) →
      trees S rec l s = some (ok, s') →
      Grows kids s s' ∧ (ok = true → ∀ d ∈ l, ∀ k ∈ kids d, k ∈ s')
  | [], s, ok, s', _, _, h => by
    injection h with h
    injection h with h1 h2
    subst h2
    exact ⟨.refl _, fun _ d hd => nomatch hd⟩
  | d :: t, s, ok, s', hP, hs, h => by
    rw [trees] at h
    obtain ⟨o, ho⟩ : ∃ o, (if S.tree d then rec (S.sub d) s else some (true, s)) = o := ⟨_, rfl⟩
    rw [ho] at h
    match o, ho, h with
    | none, _, h => exact nomatch h
    | some (false, s1), ho, h =>
      injection h with h
      injection h with h1 h2
      subst h1 h2
      exact ⟨(before hrec hsub hkids (hP d (by simp)) hs ho).1, fun e => nomatch e⟩
    | some (true, s1), ho, h =>
      obtain ⟨g1, g2⟩ := before hrec hsub hkids (hP d (by simp)) hs ho
      obtain ⟨k1, k2⟩ := trees_spec hrec hsub hkids t s1 ok s' (fun x hx => hP x (List.mem_cons_of_mem _ hx))
        (fun x hx => g1.mem (hs x hx)) h
      refine ⟨g1.trans k1, fun hok x hx k hk => ?_⟩
      rcases List.mem_cons.mp hx with rfl | hx
      · exact k1.mem (g2 rfl k hk)
      · exact k2 hok x hx k hk

theorem objects_spec (hR : R.OK) :
    ∀ (l c s : List δ), (∀ d ∈ l, ∀ k ∈ kids d, k ∈ s) → (∀ d ∈ c, ∀ k ∈ kids d, k ∈ s) →
      Grows kids s (objects S R lim l c s).2 ∧
      ((objects S R lim l c s).1 = true → ∀ d, (d ∈ c ∨ d ∈ l) → d ∈ (objects S R lim l c s).2)
  | [], c, s, _, hc => by
    refine ⟨up_grows hR hc, fun ok d hd => ?_⟩
    rcases hd with hd | hd
    · exact hR.up_ok s c ok d hd
    · exact nomatch hd
  | d :: t, c, s, hl, hc => by
    obtain ⟨u1, u2, u3⟩ := update_grows (S := S) (lim := lim) hR hc (hl d (by simp))
    rw [objects]
    by_cases hr : S.readable d = true
    · rw [if_pos hr]
      by_cases hu : (update S.size lim R.up c s d).1 = true
      · rw [if_pos hu]
        obtain ⟨k1, k2⟩ := objects_spec hR t (update S.size lim R.up c s d).2.1 (update S.size lim R.up c s d).2.2
          (fun x hx k hk => u1.mem (hl x (List.mem_cons_of_mem _ hx) k hk)) (fun x hx k hk => u1.mem (u2 x hx k hk))
        refine ⟨u1.trans k1, fun hok x hx => ?_⟩
        have hx' : (x ∈ c ∨ x = d) ∨ x ∈ t := by
          rcases hx with hx | hx
          · exact .inl (.inl hx)
          · rcases List.mem_cons.mp hx with hx | hx
            · exact .inl (.inr hx)
            · exact .inr hx
        rcases hx' with hx | hx
        · rcases u3 hu x hx with h | h
          · exact k1.mem h
          · exact k2 hok x (.inl h)
        · exact k2 hok x (.inr hx)
      · rw [if_neg hu]
        exact ⟨u1, fun e => nomatch e⟩
    · rw [if_neg hr]
      exact ⟨.refl _, fun e => nomatch e⟩

theorem verifyOrUpload_spec (hR : R.OK) {P : δ → Prop} {s0 : List δ}
    (hsub : ∀ d, P d → S.tree d = true → ∀ k ∈ S.sub d, P k)
    (hkids : ∀ d, P d → ∀ k ∈ kids d, (S.tree d = true ∧ k ∈ S.sub d) ∨ k ∈ s0) :
    ∀ n, Spec P s0 kids (verifyOrUpload S R lim n)
  | 0 => fun _ _ _ _ _ _ h => nomatch h
  | n + 1 => by
    intro req s ok s' hP hs h
    rw [verifyOrUpload] at h
    obtain ⟨o, ho⟩ : ∃ o, trees S (verifyOrUpload S R lim n) (R.missing s req) s = o := ⟨_, rfl⟩
    rw [ho] at h
    have hP' : ∀ d ∈ R.missing s req, P d := fun d hd => hP d (hR.missing_sub s req d hd)
    match o, ho, h with
    | none, _, h => exact nomatch h
    | some (false, s1), ho, h =>
      injection h with h
      injection h with h1 h2
      subst h1 h2
      exact ⟨(trees_spec (verifyOrUpload_spec hR hsub hkids n) hsub hkids _ _ _ _ hP' hs ho).1, fun e => nomatch e⟩
    | some (true, s1), ho, h =>
      obtain ⟨g1, g2⟩ := trees_spec (verifyOrUpload_spec hR hsub hkids n) hsub hkids _ _ _ _ hP' hs ho
      obtain ⟨k1, k2⟩ := objects_spec (S := S) (lim := lim) hR (R.missing s req) [] s1 (g2 rfl) (fun d hd => nomatch hd)
      injection h with h
      have e1 : (objects S R lim (R.missing s req) [] s1).1 = ok := by rw [h]
      have e2 : (objects S R lim (R.missing s req) [] s1).2 = s' := by rw [h]
      subst e1 e2
      refine ⟨g1.trans k1, fun hok d hd => ?_⟩
      by_cases hm : d ∈ R.missing s req
      · exact k2 hok d (.inr hm)
      · exact k1.mem (g1.mem (hR.missing_all s req d hd hm))

/-- What is assumed of the objects to be uploaded: whatever an uploaded object refers to is either processed before it,
or was already there in the beginning (as the inputs of an action, when its root is uploaded). -/
def Covered (S : Source δ) (kids : δ → List δ) (req s : List δ) : Prop :=
  ∀ d, Below (fun x => if S.tree x then S.sub x else []) req d →
    ∀ k ∈ kids d, (S.tree d = true ∧ k ∈ S.sub d) ∨ k ∈ s

omit [DecidableEq δ] in
theorem below_sub {req : List δ} {d : δ} (h : Below (fun x => if S.tree x then S.sub x else []) req d)
    (ht : S.tree d = true) {k : δ} (hk : k ∈ S.sub d) : Below (fun x => if S.tree x then S.sub x else []) req k :=
  .step h (by rw [if_pos ht]; exact hk)

/-- The conclusion of C36: at every moment between `s` and `s'`, the storage is closed; and after success,
everything below the requested objects is there. -/
def Safe (kids : δ → List δ) (req s : List δ) (ok : Bool) (s' : List δ) : Prop :=
  (∃ ext, s' = s ++ ext ∧ ∀ p q, ext = p ++ q → Closed kids (s ++ p)) ∧
  (ok = true → ∀ d, Below kids req d → d ∈ s')

omit [DecidableEq δ] in
theorem safe {req s : List δ} {ok : Bool} {s' : List δ} (hc : Closed kids s) (h1 : Grows kids s s')
    (h2 : ok = true → ∀ d ∈ req, d ∈ s') : Safe kids req s ok s' := by
  obtain ⟨ext, e, he⟩ := h1.prefix
  exact ⟨⟨ext, e, fun p q hpq => (he p q hpq).closed hc⟩, fun hok d hd => (h1.closed hc).below (h2 hok) hd⟩

/-- C36: uploading a blob tree, or objects of the local or of a git storage: at every moment the remote storage is
closed, and after success it has everything below the requested objects. -/
theorem C36_upload (hR : R.OK) (n : Nat) (req s : List δ) (hc : Closed kids s) (hcov : Covered S kids req s) (ok : Bool)
    (s' : List δ) (h : upload S R lim n req s = some (ok, s')) : Safe kids req s ok s' := by
  obtain ⟨h1, h2⟩ := upload_spec (lim := lim) hR (P := Below (fun x => if S.tree x then S.sub x else []) req) (s0 := s)
    (kids := kids) (fun d hd ht k hk => below_sub hd ht hk) hcov n req s ok s' (fun d hd => .root hd) (fun _ h => h) h
  exact safe hc h1 h2

/-- C36: the same for uploading the entries of a git tree. -/
theorem C36_verify (hR : R.OK) (n : Nat) (req s : List δ) (hc : Closed kids s) (hcov : Covered S kids req s) (ok : Bool)
    (s' : List δ) (h : verifyOrUpload S R lim n req s = some (ok, s')) : Safe kids req s ok s' := by
  obtain ⟨h1, h2⟩ := verifyOrUpload_spec (lim := lim) hR (P := Below (fun x => if S.tree x then S.sub x else []) req)
    (s0 := s) (kids := kids) (fun d hd ht k hk => below_sub hd ht hk) hcov n req s ok s' (fun d hd => .root hd)
    (fun _ h => h) h
  exact safe hc h1 h2

/-- Uploading the root directory of an action. -/
theorem uploadTree_spec (hR : R.OK) (n : Nat) (available : Bool) (root : δ) (s : List δ) (hav : available = true → root ∈ s)
    (htree : S.tree root = true) (hcov : Covered S kids [root] s) (ok : Bool)
    (s' : List δ) (h : uploadTree S R lim n available root s = some (ok, s')) :
    Grows kids s s' ∧ (ok = true → ∀ d ∈ [root], d ∈ s') := by
  unfold uploadTree at h
  cases available with
  | true =>
    rw [if_pos rfl] at h
    injection h with h
    injection h with h1 h2
    subst h1 h2
    exact ⟨.refl _, fun _ d hd => by rw [List.mem_singleton] at hd; exact hd ▸ hav rfl⟩
  | false =>
    rw [if_neg (by simp)] at h
    obtain ⟨o, ho⟩ : ∃ o, upload S R lim n (S.sub root) s = o := ⟨_, rfl⟩
    rw [ho] at h
    have key := fun ok s1 => upload_spec (lim := lim) hR (P := Below (fun x => if S.tree x then S.sub x else []) [root])
      (s0 := s) (kids := kids) (fun d hd ht k hk => below_sub hd ht hk) hcov n (S.sub root) s ok s1
      (fun d hd => below_sub (.root (by simp)) htree hd) (fun _ h => h)
    match o, ho, h with
    | none, _, h => exact nomatch h
    | some (false, s1), ho, h =>
      injection h with h
      injection h with h1 h2
      subst h1 h2
      exact ⟨(key _ _ ho).1, fun e => nomatch e⟩
    | some (true, s1), ho, h =>
      obtain ⟨h1, h2⟩ := key _ _ ho
      injection h with h
      have e1 : (R.up s1 [root]).1 = ok := by rw [h]
      have e2 : (R.up s1 [root]).2 = s' := by rw [h]
      subst e1 e2
      refine ⟨h1.trans (up_grows hR fun d hd k hk => ?_), fun hok d hd => hR.up_ok s1 [root] hok d hd⟩
      rw [List.mem_singleton] at hd
      subst hd
      rcases hcov d (.root (by simp)) k hk with ⟨_, hk⟩ | hk
      · exact h2 rfl k hk
      · exact h1.mem hk

/-- C36: the same for uploading the root directory of an action. -/
theorem C36_root (hR : R.OK) (n : Nat) (available : Bool) (root : δ) (s : List δ) (hav : available = true → root ∈ s)
    (htree : S.tree root = true) (hc : Closed kids s) (hcov : Covered S kids [root] s) (ok : Bool)
    (s' : List δ) (h : uploadTree S R lim n available root s = some (ok, s')) : Safe kids [root] s ok s' := by
  obtain ⟨h1, h2⟩ := uploadTree_spec hR n available root s hav htree hcov ok s' h
  exact safe hc h1 h2

/-- C36: the recursion ends, if the objects have ranks, as there are no cycles of hashes. -/
theorem C36_ends (hR : R.OK) (rank : δ → Nat) (hrank : ∀ d, ∀ k ∈ S.sub d, rank k < rank d) :
    ∀ (n : Nat) (req s : List δ), (∀ d ∈ req, rank d < n) → upload S R lim (n + 1) req s ≠ none
  | n, req, s, hr => by
    rw [upload]
    have key : ∀ (l c s : List δ), (∀ d ∈ l, rank d < n) → loop S R lim (upload S R lim n) l c s ≠ none := by
      intro l
      induction l with
      | nil => exact fun c s _ e => nomatch e
      | cons d t ih =>
        intro c s hl
        rw [loop]
        obtain ⟨o, ho⟩ : ∃ o, (if S.tree d then upload S R lim n (S.sub d) s else some (true, s)) = o := ⟨_, rfl⟩
        rw [ho]
        match o, ho with
        | none, ho =>
          exfalso
          by_cases ht : S.tree d = true
          · rw [if_pos ht] at ho
            have hd := hl d (by simp)
            obtain ⟨m, rfl⟩ : ∃ m, n = m + 1 := ⟨n - 1, by omega⟩
            exact C36_ends hR rank hrank m (S.sub d) s (fun k hk => by have := hrank d k hk; omega) ho
          · rw [if_neg ht] at ho
            exact nomatch ho
        | some (false, s1), _ => exact fun e => nomatch e
        | some (true, s1), _ =>
          simp only
          split
          · split
            · exact ih _ _ (fun x hx => hl x (List.mem_cons_of_mem _ hx))
            · exact fun e => nomatch e
          · exact fun e => nomatch e
    exact key _ _ _ (fun d hd => hr d (hR.missing_sub s req d hd))

end

/-! ## The other protocol -/

/-- bazel_msg_factory.cpp:353-372 (with `DirectoryTreeToBundle`): the directories below a directory, each after those
in it; with a bound for the depth. -/
def postorder (sub : δ → List δ) : Nat → δ → List δ
  | 0, d => [d]
  | n + 1, d => ((sub d).map (postorder sub n)).flatten ++ [d]

/-- common_api.cpp:143-177 (`CommonUploadTreeCompatible`): all directories go through one container. -/
def uploadCompatible (S : Source δ) (R : Peer δ) (lim : Nat) (n : Nat) (root : δ) (s : List δ) : Bool × List δ :=
  feed S.size lim R.up (postorder S.sub n root) [] s

/-! ## Examples -/

/-- For examples: 10 refers to 11 and 1, 11 refers to 12 and 2, and 12 to 3 and 1; 12 is large. -/
def exampleKids : Nat → List Nat
  | 10 => [11, 1]
  | 11 => [12, 2]
  | 12 => [3, 1]
  | _ => []

def exampleSource : Source Nat := ⟨fun d => decide (d ≥ 10), exampleKids, fun _ => true, fun d => if d = 12 then 100 else 10⟩

/-- A peer that stores all of a batch in reverse order, but only three batches. -/
def examplePeer (stop : Nat) : Peer Nat :=
  ⟨fun s req => req.filter (fun d => decide (d ∉ s)),
   fun s b => if s.length ≥ stop then (false, s ++ b.reverse.take 1) else (true, s ++ b.reverse)⟩

theorem examplePeer_ok (stop : Nat) : (examplePeer stop).OK := by
  refine ⟨fun s req d hd => (List.mem_filter.mp hd).1, fun s req d hd hn => ?_, fun s b => ?_, fun s b h d hd => ?_⟩
  · by_contra h
    exact hn (List.mem_filter.mpr ⟨hd, by simpa using h⟩)
  · unfold examplePeer
    simp only
    split
    · exact ⟨b.reverse.take 1, rfl, fun d hd => List.mem_reverse.mp (List.mem_of_mem_take hd)⟩
    · exact ⟨b.reverse, rfl, fun d hd => List.mem_reverse.mp hd⟩
  · unfold examplePeer at h ⊢
    simp only at h ⊢
    split at h
    · exact nomatch h
    · rename_i hs
      rw [if_neg hs]
      exact List.mem_append_right _ (List.mem_reverse.mpr hd)

example : upload exampleSource (examplePeer 50) 25 4 [10] [2] = some (true, [2, 3, 1, 12, 11, 1, 10]) := by decide

example : upload exampleSource (examplePeer 3) 25 4 [10] [2] = some (false, [2, 3, 1, 12]) := by decide

example : verifyOrUpload exampleSource (examplePeer 50) 25 4 [10, 3] [2] = some (true, [2, 3, 1, 12, 11, 1, 10, 3]) := by decide

theorem exampleCovered (s : List Nat) : Covered exampleSource exampleKids [10] s := by
  intro d _ k hk
  refine .inl ⟨?_, hk⟩
  by_contra h
  have hd : d < 10 := by simpa [exampleSource] using h
  have : exampleKids d = [] := by
    unfold exampleKids
    split <;> first | rfl | omega
  rw [this] at hk
  exact nomatch hk

example : Safe exampleKids [10] [2] false [2, 3, 1, 12] :=
  C36_upload (S := exampleSource) (lim := 25) (examplePeer_ok 3) 4 [10] [2]
    (fun d hd k hk => by rw [List.mem_singleton] at hd; subst hd; exact nomatch hk) (exampleCovered _) _ _ (by decide)

/-- With the other protocol, C36 does not hold: a directory that is too large for the container is uploaded before the
directories in it, which are still in the container; here 12 refers to 13, and is stored without it. -/
theorem C36_violation_compatible : ∃ (S : Source Nat) (R : Peer Nat) (s' : List Nat), R.OK ∧
    Covered S S.sub [12] [] ∧ Closed S.sub [] ∧ uploadCompatible S R 25 2 12 [] = (false, s') ∧ 12 ∈ s' ∧
    13 ∈ S.sub 12 ∧ 13 ∉ s' := by
  refine ⟨⟨fun d => decide (d = 12), fun d => if d = 12 then [13] else [], fun _ => true, fun d => if d = 12 then 100 else 10⟩,
    examplePeer 0, [12], examplePeer_ok 0, ?_, (fun d hd => nomatch hd), by decide, by decide, by decide, by decide⟩
  intro d _ k hk
  by_cases h : d = 12
  · subst h
    exact .inl ⟨rfl, hk⟩
  · simp only at hk
    rw [if_neg h] at hk
    exact nomatch hk

end Verif.Remote.Upload
