import Verif.Serve.Variables
import Verif.Serve.RequestProps
import Verif.Serve.TargetProps

/-!
# C103: a repository that is absent behaves as if it were there
-/

namespace Verif.Serve

open Verif Verif.Expr Verif.Result

variable {N : Type}

/-- **C103.** Which file is used: the one in the first repository that has it; an incomplete repository before it makes the request fail. -/
theorem C103_file (repos : List Blob) :
    (∀ s, findFile false repos = .go s ↔ ∃ l r, repos = l ++ .content s :: r ∧ ∀ b ∈ l, b = .noTree ∨ b = .unreadable) ∧
    (findFile false repos = .stop .internal ↔ .unreadable ∈ repos ∧ ∀ b ∈ repos, b = .noTree ∨ b = .unreadable) ∧
    findFile false repos ≠ .crash := by
  have hgo : ∀ (repos : List Blob) (seen : Bool) s, findFile seen repos = .go s ↔
      ∃ l r, repos = l ++ .content s :: r ∧ ∀ b ∈ l, b = .noTree ∨ b = .unreadable := by
    intro repos
    induction repos with
    | nil =>
      intro seen s
      simp only [findFile]
      constructor
      · intro h; cases h
      · rintro ⟨l, r, h, _⟩
        cases l <;> cases h
    | cons a t ih =>
      intro seen s
      have step : ∀ seen', (a = .noTree ∨ a = .unreadable) → (findFile seen' t = .go s ↔
          ∃ l r, a :: t = l ++ .content s :: r ∧ ∀ b ∈ l, b = .noTree ∨ b = .unreadable) := by
        intro seen' ha
        rw [ih seen' s]
        constructor
        · rintro ⟨l, r, rfl, h⟩
          exact ⟨a :: l, r, rfl, by
            intro b hb
            rcases List.mem_cons.1 hb with rfl | hb
            · exact ha
            · exact h b hb⟩
        · rintro ⟨l, r, e, h⟩
          cases l with
          | nil =>
            simp only [List.nil_append, List.cons.injEq] at e
            rcases ha with rfl | rfl <;> cases e.1
          | cons b l =>
            simp only [List.cons_append, List.cons.injEq] at e
            exact ⟨l, r, e.2, fun b hb => h b (List.mem_cons_of_mem _ hb)⟩
      cases a with
      | noTree => exact step _ (.inl rfl)
      | unreadable => exact step _ (.inr rfl)
      | noBlob =>
        simp only [findFile]
        constructor
        · intro h; cases h
        · rintro ⟨l, r, e, h⟩
          cases l with
          | nil => simp at e
          | cons b l =>
            simp only [List.cons_append, List.cons.injEq] at e
            rcases h b (List.mem_cons_self ..) with h | h <;> rw [← e.1] at h <;> cases h
      | content c =>
        simp only [findFile]
        constructor
        · intro h; cases h; exact ⟨[], t, rfl, by simp⟩
        · rintro ⟨l, r, e, h⟩
          cases l with
          | nil =>
            simp only [List.nil_append, List.cons.injEq, Blob.content.injEq] at e
            rw [e.1]
          | cons b l =>
            simp only [List.cons_append, List.cons.injEq] at e
            rcases h b (List.mem_cons_self ..) with h | h <;> rw [← e.1] at h <;> cases h
  have hint : ∀ (repos : List Blob) (seen : Bool), findFile seen repos = .stop .internal ↔
      (seen = true ∨ .unreadable ∈ repos) ∧ ∀ b ∈ repos, b = .noTree ∨ b = .unreadable := by
    intro repos
    induction repos with
    | nil => intro seen; cases seen <;> simp [findFile]
    | cons a t ih =>
      intro seen
      cases a with
      | noTree => simp [findFile, ih]
      | unreadable => simp [findFile, ih]
      | noBlob => simp [findFile]
      | content c => simp [findFile]
  have hcr : ∀ (repos : List Blob) (seen : Bool), findFile seen repos ≠ .crash := by
    intro repos
    induction repos with
    | nil => intro seen; simp [findFile]
    | cons a t ih => intro seen; cases a <;> simp [findFile, ih]
  refine ⟨hgo repos false, ?_, hcr repos false⟩
  rw [hint]
  simp

/-- **C103.** The variables the endpoint reports for a target are those its rule would read, if the target is of type `export`; for
anything else, and if the rule would fail to read them, the request is refused. -/
theorem C103_variables (target : Str) (file : J N) (vars : List Str) :
    serveVariables target file = .go vars ↔
      ∃ m desc, file = .obj m ∧ assoc target m = some (.obj desc) ∧
        assoc "type".toList desc = some (.str "export".toList) ∧ localVariables desc = some vars := by
  constructor
  · intro h
    unfold serveVariables at h
    split at h
    · rename_i m
      split at h
      · rename_i desc hd
        split at h
        · rename_i t ht
          split at h
          · rename_i hx
            subst hx
            refine ⟨m, desc, rfl, hd, ht, ?_⟩
            unfold localVariables
            split at h
            · rename_i hf
              cases h
              rw [hf]
              rfl
            · rename_i l hf
              rw [hf]
              simp only [Option.getD_some]
              unfold Step.orStop at h
              split at h
              · cases h; assumption
              · cases h
            · cases h
          · cases h
        · cases h
      · cases h
    · cases h
  · rintro ⟨m, desc, rfl, hd, ht, hv⟩
    unfold serveVariables
    simp only [hd, ht, if_true]
    unfold localVariables at hv
    cases hf : assoc "flexible_config".toList desc with
    | none =>
      rw [hf] at hv
      simp only [Option.getD_none, readStrings, Option.some.injEq] at hv
      subst hv
      rfl
    | some j =>
      rw [hf] at hv
      simp only [Option.getD_some] at hv
      cases j with
      | arr l =>
        simp only at hv ⊢
        rw [hv]
        rfl
      | _ => cases hv

/-- **C103.** The request for the variables never ends the process, and is answered only by variables of the file found. -/
theorem C103_asked (parseJson : Str → Option (J N)) (repos : List Blob) (target : Str) :
    askVariables parseJson repos target ≠ .crash ∧
    ∀ vars, askVariables parseJson repos target = .go vars ↔
      ∃ s file, findFile false repos = .go s ∧ parseJson s = some file ∧ serveVariables target file = .go vars := by
  have hn : ∀ file : J N, serveVariables target file ≠ .crash := by
    intro file h
    unfold serveVariables Step.orStop at h
    repeat' split at h
    all_goals cases h
  unfold askVariables
  cases hf : findFile false repos with
  | crash => exact absurd hf (C103_file repos).2.2
  | stop c =>
    refine ⟨by simp [Step.bind], fun vars => ?_⟩
    simp [Step.bind]
  | go s =>
    simp only [Step.bind]
    cases hp : parseJson s with
    | none =>
      refine ⟨by simp [Step.orStop], fun vars => ?_⟩
      simp [Step.orStop, hp]
    | some file =>
      refine ⟨by simpa [Step.orStop] using hn file, fun vars => ?_⟩
      simp [Step.orStop, hp]

/-- **C103.** After at most one change of the configuration the target is looked up, with the values of the flexible variables. -/
theorem C103_settled [DecidableEq (List (Str × Value N))] (vars : List Str) (m : List (Str × Value N)) :
    ∃ c, prune vars (.map m) = .go c ∧
      ((next vars m = .go (.lookup c) ∧ m = c) ∨ (next vars m = .go (.again c) ∧ next vars c = .go (.lookup c))) := by
  cases hp : prune vars (.map m) with
  | stop x => cases vars <;> simp [prune] at hp
  | crash => cases vars <;> simp [prune] at hp
  | go c =>
    refine ⟨c, rfl, ?_⟩
    unfold next
    rw [hp, C101_pruned hp]
    simp only [Step.bind, if_true]
    by_cases h : m = c
    · rw [if_pos h]; exact .inl ⟨rfl, h⟩
    · rw [if_neg h]; exact .inr ⟨rfl, trivial⟩

/-- **C103.** With right entries in the local cache and from the endpoint, an absent target that is found has the value it would have if its
repository were there: if a client with the repository has a value, it is the same, and it has one for enough fuel unless it is
told to stop. -/
theorem C103_same {S K V O : Type} [DecidableEq S] [DecidableEq K] [DecidableEq O] {B : Builds S K V O} {q : S}
    {read : K → Option (Entry K V)} {ask : K → Took K V}
    (hr : ∀ k e, read k = some e → Built B q k e) (ha : ∀ k e, ask k = .entry e → Built B q k e) {k : K}
    {e : Entry K V} (h : clientAbsent read ask k = some e) :
    (∀ read' ask' n e', (∀ k e, read' k = some e → Built B q k e) → (∀ k e, ask' k = .entry e → Built B q k e) →
      client B q read' ask' n k = some e' → e' = e) ∧
    (∀ read' ask', (∀ k e, read' k = some e → Built B q k e) → (∀ k e, ask' k = .entry e → Built B q k e) →
      (∀ i, Needs B k i → ask' i ≠ .fatal) → ∃ n, ∀ fuel, n ≤ fuel → client B q read' ask' fuel k = some e) := by
  have hb := C102_absent hr ha h
  exact ⟨fun read' ask' n e' hr' ha' hc => built_unique (C102_client hr' ha' hc) hb,
    fun read' ask' hr' ha' hn => C102_client_complete hr' ha' hn hb⟩

/-! ## Examples -/

/-- A targets file with an export target, one without variables, and another one. -/
def demoFile : J Nat :=
  .obj [("lib".toList, .obj [("flexible_config".toList, .arr [.str "ARCH".toList, .str "DEBUG".toList]),
      ("target".toList, .arr [.str "x".toList]), ("type".toList, .str "export".toList)]),
    ("none".toList, .obj [("type".toList, .str "export".toList)]),
    ("other".toList, .obj [("type".toList, .str "install".toList)]),
    ("bad".toList, .obj [("flexible_config".toList, .str "ARCH".toList), ("type".toList, .str "export".toList)])]

/-- C103_variables, C103_asked. -/
example : askVariables (fun s => if s = "file".toList then some demoFile else none)
      [.noTree, .unreadable, .content "file".toList] "lib".toList = .go ["ARCH".toList, "DEBUG".toList] ∧
    serveVariables "none".toList demoFile = .go [] ∧
    serveVariables "other".toList demoFile = .stop .failedPrecondition ∧
    serveVariables "bad".toList demoFile = .stop .failedPrecondition ∧
    serveVariables "missing".toList demoFile = .stop .failedPrecondition := by decide +kernel

/-- C103_file: what comes first decides. -/
example : findFile false [.noTree, .content ['a'], .content ['b']] = .go ['a'] ∧
    findFile false [.unreadable, .noTree] = .stop .internal ∧ findFile false [.noTree] = .stop .failedPrecondition ∧
    findFile false [.noBlob, .content ['a']] = .stop .failedPrecondition := by decide

/-- C103_same: an absent application, and the same built by a client. -/
example : let ask : Nat → Took Nat (List Nat) := fun k => if k = 1 then .entry ⟨[500, 501], [1, 0]⟩ else .locally
    clientAbsent (fun _ => none) ask 1 = some ⟨[500, 501], [1, 0]⟩ ∧
    client demoBuilds 5 (fun _ => none) (fun _ => .locally) 9 1 = some ⟨[500, 501], [1, 0]⟩ ∧
    (∀ k e, ask k = .entry e → Built demoBuilds 5 k e) := by
  refine ⟨by decide, by decide, ?_⟩
  intro k e h
  by_cases hk : k = 1
  · subst hk
    cases h
    exact ⟨9, by decide⟩
  · simp [hk] at h

end Verif.Serve
