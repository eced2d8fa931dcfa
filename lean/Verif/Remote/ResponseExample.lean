import Verif.Remote.ResponseRound

/-!
# Responses to executions (C78): examples and violations
-/

namespace Verif.Response.Example

open Verif.Dig Verif.RE Verif.Wire

theorem walk_succ (cas : Cas) : ∀ (n : Nat) (st : List Str) (seen x : List (Str × Directory)),
    walk cas n st seen = some x → walk cas (n + 1) st seen = some x
  | n, [], seen, x, e => by
    cases n <;> exact e
  | 0, _ :: _, _, _, e => (nomatch e)
  | n + 1, h :: st, seen, x, e => by
    rw [walk] at e ⊢
    split at e
    · rename_i hs
      rw [if_pos hs]
      exact walk_succ cas n _ _ _ e
    · rename_i hs
      rw [if_neg hs]
      cases e1 : cas h with
      | none => rw [e1] at e; cases e
      | some s =>
        rw [e1, Option.bind_some] at e
        rw [Option.bind_some]
        cases e2 : Directory.read s with
        | none => rw [e2] at e; cases e
        | some m =>
          rw [e2, Option.bind_some] at e
          rw [Option.bind_some]
          cases e3 : hashes m.dirs with
          | none => rw [e3] at e; cases e
          | some hs =>
            rw [e3, Option.bind_some] at e
            rw [Option.bind_some]
            exact walk_succ cas n _ _ _ e

theorem makeTree_add {cas : Cas} {h : Str} {t : TreeMsg} {n : Nat} (e : makeTree cas n h = some t) :
    ∀ k, makeTree cas (n + k) h = some t
  | 0 => e
  | k + 1 => by
    have := makeTree_add e k
    unfold makeTree at this ⊢
    cases hw : walk cas (n + k) [h] [] with
    | none => rw [hw] at this; cases this
    | some x =>
      rw [hw] at this
      rw [show n + (k + 1) = n + k + 1 by omega, walk_succ cas _ _ _ _ hw]
      exact this

theorem makeTree_unique {cas : Cas} {h : Str} {t t' : TreeMsg} {n n' : Nat} (e : makeTree cas n h = some t)
    (e' : makeTree cas n' h = some t') : t = t' := by
  have h1 := makeTree_add e n'
  have h2 := makeTree_add e' n
  rw [show n' + n = n + n' by omega, h1] at h2
  exact Option.some.inj h2

/-! ## Compatible mode -/

def name (c : Char) : Str := List.replicate 64 c

def hello : Str := "hello".toList

/-- A directory with an executable and a link leaving it. -/
def sub : Directory := ⟨[⟨"f".toList, ⟨name '1', 5⟩, true⟩], [], [⟨"l".toList, "../../g".toList⟩]⟩

/-- A directory in which that one occurs twice. -/
def root : Directory :=
  ⟨[⟨"g".toList, ⟨name '1', 5⟩, false⟩], [⟨"a".toList, ⟨name '2', sub.text.length⟩⟩,
    ⟨"b".toList, ⟨name '2', sub.text.length⟩⟩], []⟩

/-- An injective function on the contents below. -/
def sha (c : Str) : Str :=
  if c = hello then name '1' else if c = sub.text then name '2' else if c = root.text then name '3'
  else if c = "d/g".toList then name '4' else if c.length < 100 then name '5' else name (if c.length % 2 = 0 then 'e' else 'f')

def hash : Hash := ⟨.plainSHA256, sha⟩

def cas : Cas := fun h => if h = name '1' then some hello else if h = name '2' then some sub.text
  else if h = name '3' then some root.text else if h = name '4' then some "d/g".toList else none

/-- Two files, a link that was to be a file, and a directory. -/
def result : Result :=
  ⟨[⟨"x".toList, ⟨name '1', 5⟩, true⟩, ⟨"y".toList, ⟨name '1', 5⟩, false⟩], [("l".toList, "d/g".toList)],
    [("l".toList, "d/g".toList)], [], [("d".toList, ⟨name '3', root.text.length⟩)]⟩

theorem hash_proper : hash.Proper := by
  intro c
  have h : ∃ x, hash.sha c = name x ∧ isHexDigit x = true := by
    show ∃ x, sha c = name x ∧ _
    unfold sha
    repeat' split
    all_goals exact ⟨_, rfl, by decide⟩
  obtain ⟨x, e, hx⟩ := h
  rw [e]
  exact ⟨List.length_replicate .., fun y hy => by rw [List.eq_of_mem_replicate hy]; exact hx⟩

theorem sub_digest : fromBazel .plainSHA256 ⟨name '2', sub.text.length⟩ =
    some ⟨name '2', .plainSHA256, false, sub.text.length⟩ := by decide +kernel

theorem root_digest : fromBazel .plainSHA256 ⟨name '3', root.text.length⟩ =
    some ⟨name '3', .plainSHA256, false, root.text.length⟩ := by decide +kernel

theorem sub_sized : sub.Sized := by
  constructor
  · intro f hf
    simp only [sub, List.mem_cons, List.not_mem_nil, or_false] at hf
    subst hf
    unfold RE.Int64
    decide
  · exact fun _ h => (nomatch h)

theorem root_sized : root.Sized := by
  constructor
  · intro f hf
    simp only [root, List.mem_cons, List.not_mem_nil, or_false] at hf
    subst hf
    unfold RE.Int64
    decide
  · intro f hf
    simp only [root, List.mem_cons, List.not_mem_nil, or_false] at hf
    rcases hf with rfl | rfl
    all_goals
      unfold RE.Int64
      decide +kernel

theorem sub_whole : Whole sha cas (name '2') :=
  .mk (s := sub.text) (m := sub) (by decide +kernel) (by decide +kernel) (by decide +kernel)
    sub_sized rfl (fun _ h => (nomatch h)) (fun _ h => (nomatch h))

theorem root_whole : Whole sha cas (name '3') := by
  refine .mk (s := root.text) (m := root) (by decide +kernel) (by decide +kernel) (by decide +kernel)
    root_sized rfl (fun d h => ?_) (fun d h i e => ?_)
  · simp only [root, List.mem_cons, List.not_mem_nil, or_false] at h
    rcases h with rfl | rfl <;> exact ⟨_, sub_digest⟩
  · simp only [root, List.mem_cons, List.not_mem_nil, or_false] at h
    rcases h with rfl | rfl
    all_goals
      have := sub_digest.symm.trans e
      cases this
      exact sub_whole

theorem proper : Proper hash cas result := by
  constructor
  · intro f hf
    simp only [result, List.mem_cons, List.not_mem_nil, or_false] at hf
    rcases hf with rfl | rfl
    all_goals exact ⟨⟨name '1', .plainSHA256, false, 5⟩, by decide +kernel, by decide⟩
  · intro x hx
    simp only [result, List.mem_cons, List.not_mem_nil, or_false] at hx
    subst hx
    exact ⟨_, root_digest, by decide +kernel, fun _ => ⟨root_whole, root.text, by decide +kernel, rfl⟩⟩
  · intro x hx
    simp only [Result.allLinks, result, List.mem_append, List.mem_cons, List.not_mem_nil, or_false] at hx
    rcases hx with rfl | rfl <;> decide +kernel
  · decide +kernel
  · decide +kernel
  · decide +kernel

def tree : TreeMsg := ⟨root, [sub]⟩

theorem tree_made : makeTree cas 5 (name '3') = some tree := by decide +kernel

theorem texts {c : Str} (h : TreeText hash cas result c) : c = tree.text := by
  obtain ⟨x, hx, d, n, t, e, hm, rfl⟩ := h
  simp only [result, List.mem_cons, List.not_mem_nil, or_false] at hx
  subst hx
  have := root_digest.symm.trans e
  cases this
  rw [makeTree_unique hm tree_made]

theorem apart : Apart hash cas result :=
  ⟨fun c h => by rw [texts h]; decide +kernel, fun c h => by rw [texts h]; decide +kernel,
    fun c c' h h' _ => by rw [texts h, texts h']⟩

theorem known : KnownLinks result := .inr (.inl (by decide))

-- The conditions of `C78_local`, `C78_same` and `C78_links` are met; there is a directory in which a link leaves it.
example : hash.Proper ∧ Proper hash cas result ∧ Apart hash cas result ∧ KnownLinks result ∧ LinksUp hash cas result :=
  ⟨hash_proper, proper, apart, known, rfl, .inr ⟨_, List.mem_singleton.2 rfl, _, root_digest, name '2', sub.text, sub,
    .step (m := root) (d := ⟨"a".toList, ⟨name '2', sub.text.length⟩⟩) (s := root.text) (by decide +kernel)
      (by decide +kernel) (by decide +kernel) sub_digest (.refl _), by decide +kernel, by decide +kernel,
    ⟨"l".toList, "../../g".toList⟩, by decide, by unfold Upwards; decide +kernel⟩⟩

example := C78_local hash cas result proper
example := C78_same hash hash_proper List.reverse List.reverse_perm cas result proper (fun _ => apart) true fun _ => known
example := C78_links hash hash_proper List.reverse List.reverse_perm cas result proper (fun _ => apart) false
  fun h => (nomatch h)

/-! ## Native mode -/

def gitName (c : Char) : Str := List.replicate 40 c

def gitHash : Hash := ⟨.gitSHA1, fun c => gitName (if c = "d/g".toList then '4' else 'f')⟩

def gitCas : Cas := fun h => if h = gitName '4' then some "d/g".toList else none

def gitResult : Result :=
  ⟨[⟨"x".toList, ⟨'6' :: '2' :: gitName '1', 5⟩, true⟩], [("l".toList, "d/g".toList)], [("l".toList, "d/g".toList)], [],
    [("d".toList, ⟨'7' :: '4' :: gitName '3', 33⟩)]⟩

theorem git_hash_proper : gitHash.Proper := by
  intro c
  have h : ∃ x, gitHash.sha c = gitName x ∧ isHexDigit x = true := by
    show ∃ x, gitName (if c = "d/g".toList then '4' else 'f') = gitName x ∧ _
    split
    all_goals exact ⟨_, rfl, by decide⟩
  obtain ⟨x, e, hx⟩ := h
  rw [e]
  exact ⟨List.length_replicate .., fun y hy => by rw [List.eq_of_mem_replicate hy]; exact hx⟩

theorem git_proper : Proper gitHash gitCas gitResult := by
  constructor
  · intro f hf
    simp only [gitResult, List.mem_cons, List.not_mem_nil, or_false] at hf
    subst hf
    exact ⟨⟨gitName '1', .gitSHA1, false, 5⟩, by decide +kernel, by decide⟩
  · intro x hx
    simp only [gitResult, List.mem_cons, List.not_mem_nil, or_false] at hx
    subst hx
    exact ⟨⟨gitName '3', .gitSHA1, true, 33⟩, by decide +kernel, by decide, fun h => (nomatch h)⟩
  · intro x hx
    simp only [Result.allLinks, gitResult, List.mem_append, List.mem_cons, List.not_mem_nil, or_false] at hx
    rcases hx with rfl | rfl <;> decide +kernel
  · decide +kernel
  · decide +kernel
  · decide +kernel

example := C78_again_partial gitHash git_hash_proper rfl List.reverse List.reverse_perm gitCas gitResult git_proper true
  fun _ => .inr (.inl (by decide))

/-! ## Requests -/

def spec : Spec :=
  ⟨⟨name '3', .plainSHA256, false, root.text.length⟩, ["cp".toList, "g".toList, "x".toList], "w".toList,
    ["y".toList, "x".toList], ["d".toList], ⟨[("PATH".toList, "/bin".toList)], List.pairwise_singleton ..⟩,
    ⟨[("os".toList, "linux".toList)], List.pairwise_singleton ..⟩⟩

def request : Request := spec.request true 300000 false

def actionText : Str := (request.actionText .plainSHA256 sha).getD []

/-- The storage after uploading action and command. -/
def uploaded : Cas := fun h => if h = sha request.commandText then some request.commandText
  else if h = sha actionText then some actionText else cas h

theorem request_proper : request.Proper .plainSHA256 :=
  ⟨⟨by decide +kernel, by decide +kernel, fun h => (nomatch h)⟩, rfl, by unfold RE.Int64; decide +kernel⟩

-- The conditions of `C78_request` are met.
example := C78_request hash hash_proper spec true 300000 false request_proper actionText (by decide +kernel) uploaded cas
  (by decide +kernel) (by decide +kernel) (by decide +kernel)

/-! ## Violations -/

/-- A directory as only output. -/
def one : Result := ⟨[], [], [], [], [("d".toList, ⟨name '2', sub.text.length⟩)]⟩

def oneTree : TreeMsg := ⟨sub, []⟩

/-- C78 fails in compatible mode for results taken from the action cache: the service stores, for the key of the
request, the result in the form for the client, where directories are given by digests of `Tree` messages; a local build
on the same storage, asking with the same key, takes that digest as one of a `Directory`. Here, it does not fail, as the
message can be parsed as one; instead it reports another directory, and it misses the link leaving the directory. -/
theorem C78_violation_cached :
    ((localSeen hash cas 5 one).map fun s => (s.infos, s.up)) =
      some ([("d".toList, ⟨⟨name '2', .plainSHA256, false, sub.text.length⟩, .tree, false⟩)], true) ∧
    ((execute hash id 5 false cas none one).bind fun p => (localSeen hash p.2 5 p.1).map fun s => (s.infos, s.up)) =
      some ([("d".toList, ⟨⟨name '5', .plainSHA256, false, oneTree.text.length⟩, .tree, false⟩)], false) ∧
    ((execute hash id 5 false cas none one).bind fun p => p.2 (name '5')) = some oneTree.text ∧
    (Directory.read oneTree.text).isSome = true ∧ Directory.read oneTree.text ≠ some sub := by
  decide +kernel

/-- Two directories as outputs. -/
def two : Result :=
  ⟨[], [], [], [], [("a".toList, ⟨name '3', root.text.length⟩), ("b".toList, ⟨name '2', sub.text.length⟩)]⟩

/-- C78 fails in compatible mode if a blob of a response is no longer there: if the `Tree` message of the first output
directory is missing, the client takes the content of the second one for the first one. -/
theorem C78_violation_missing :
    ((serve hash id 5 false cas two).bind fun p => (clientSeen hash p.2 p.1).map Got.infos) =
      some [("a".toList, ⟨⟨name '3', .plainSHA256, false, root.text.length⟩, .tree, false⟩),
        ("b".toList, ⟨⟨name '2', .plainSHA256, false, sub.text.length⟩, .tree, false⟩)] ∧
    ((serve hash id 5 false cas two).bind fun p => (clientSeen hash (fun h => if h = sha tree.text then none else p.2 h)
      p.1).map Got.infos) = some [("a".toList, ⟨⟨name '2', .plainSHA256, false, sub.text.length⟩, .tree, false⟩)] := by
  decide +kernel

end Verif.Response.Example
