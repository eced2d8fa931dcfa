import Verif.Serve.Request
import Verif.Serve.RootsProps
import Verif.Names.Props
import Verif.TargetCache.Props

/-!
# C101: what is asked for is what the client means
-/

namespace Verif.Serve

open Verif Verif.Expr Verif.Result Verif.TC Verif.Names

variable {N : Type}

/-! ## Addresses -/

theorem stoi_decimal {n : Nat} (hn : n < 2 ^ 31) : stoi (decimal n) = .value n := by
  obtain ⟨d, t, hd, e⟩ := decimal_head n
  obtain ⟨h1, _, h3, h4, h5⟩ := digitChar_cases d hd
  have hl := leadingDigits_decimal n [] (fun c t e => by cases e)
  rw [List.append_nil] at hl
  unfold stoi
  rw [e] at hl ⊢
  rw [List.dropWhile_cons, h3]
  simp only [Bool.false_eq_true, if_false, h4, h5]
  unfold stoiDigits
  simp only [h1, if_true, Bool.false_eq_true, if_false, hl, hn]

theorem takeWhile_all {p : Char → Bool} : ∀ {a : Str}, (∀ c ∈ a, p c = true) → a.takeWhile p = a
  | [], _ => rfl
  | c :: t, h => by
    rw [List.takeWhile_cons, h c (List.mem_cons_self ..), if_pos rfl,
      takeWhile_all fun x hx => h x (List.mem_cons_of_mem _ hx)]

theorem dropWhile_all {p : Char → Bool} : ∀ {a : Str}, (∀ c ∈ a, p c = true) → a.dropWhile p = []
  | [], _ => rfl
  | c :: t, h => by
    rw [List.dropWhile_cons, h c (List.mem_cons_self ..), if_pos rfl,
      dropWhile_all fun x hx => h x (List.mem_cons_of_mem _ hx)]

theorem mem_takeWhile_imp {p : Char → Bool} {x : Char} : ∀ {a : Str}, x ∈ a.takeWhile p → p x = true
  | [], h => absurd h List.not_mem_nil
  | c :: t, h => by
    rw [List.takeWhile_cons] at h
    split at h
    · rename_i hc
      rcases List.mem_cons.1 h with rfl | h
      · exact hc
      · exact mem_takeWhile_imp h
    · exact absurd h List.not_mem_nil

theorem getline_colon {a b : Str} (ha : ':' ∉ a) : getline (a ++ ':' :: b) = some (a, b) := by
  have hall : ∀ c ∈ a, decide (c ≠ ':') = true := fun c hc => by
    simpa using fun e : c = ':' => ha (e ▸ hc)
  unfold getline
  rw [if_neg (by simp), List.takeWhile_append_of_pos hall, List.dropWhile_append_of_pos hall]
  simp

theorem getline_all {a : Str} (ha : ':' ∉ a) (hn : a ≠ []) : getline a = some (a, []) := by
  have hall : ∀ c ∈ a, decide (c ≠ ':') = true := fun c hc => by
    simpa using fun e : c = ':' => ha (e ▸ hc)
  unfold getline
  rw [if_neg hn, takeWhile_all hall]
  have : a.dropWhile (fun c => decide (c ≠ ':')) = [] := dropWhile_all hall
  rw [this]
  rfl

/-- An address that can be given: the host has no colon. -/
def AddressOK (a : Address) : Prop := a.host ≠ [] ∧ ':' ∉ a.host ∧ a.port ≤ 65535

theorem parsePort_le {s : Str} {n : Nat} (h : parsePort s = .go (some n)) : n ≤ 65535 := by
  unfold parsePort at h
  split at h
  · rename_i i _
    simp only [Step.go.injEq] at h
    split at h
    · rename_i hi
      cases h
      omega
    · cases h
  · cases h
  · cases h

/-- Only such addresses are read. -/
theorem parseAddress_ok {s : Str} {a : Address} (h : parseAddress s = .go (some a)) : AddressOK a := by
  unfold parseAddress at h
  split at h
  · cases h
  · rename_i host rest hg
    split at h
    · cases h
    · rename_i port _ _
      cases hp : parsePort port with
      | stop c => rw [hp] at h; cases h
      | crash => rw [hp] at h; cases h
      | go p =>
        rw [hp] at h
        simp only [Step.bind] at h
        split at h
        · rename_i n
          simp only [Step.go.injEq] at h
          split at h
          · cases h
          · rename_i hh
            cases h
            refine ⟨hh, fun hm => ?_, parsePort_le hp⟩
            unfold getline at hg
            split at hg
            · cases hg
            · simp only [Option.some.injEq, Prod.mk.injEq] at hg
              have hm' : ':' ∈ s.takeWhile fun c => decide (c ≠ ':') := by rw [hg.1]; exact hm
              have := mem_takeWhile_imp hm'
              simp at this
        · cases h

theorem parseAddress_text {a : Address} (h : AddressOK a) : parseAddress a.text = .go (some a) := by
  obtain ⟨host, port⟩ := a
  obtain ⟨h1, h2, h3⟩ := h
  have hd : ':' ∉ decimal port := fun hm => by
    have := decimal_isDigit port ':' hm
    cases this
  have hne : decimal port ≠ [] := by
    obtain ⟨d, t, _, e⟩ := decimal_head port
    rw [e]
    exact List.cons_ne_nil _ _
  simp only at h1 h2 h3
  have hp : parsePort (decimal port) = .go (some port) := by
    unfold parsePort
    rw [stoi_decimal (by omega)]
    simp only
    rw [if_pos ⟨by omega, by omega⟩]
    rfl
  unfold parseAddress Address.text
  rw [getline_colon h2]
  simp only [getline_all hd hne, hp, Step.bind, if_neg h1]

theorem readProps_json : ∀ p : Properties, readProps ((p.map fun kv => (kv.1, (Json.str kv.2 : J N)))) = some p
  | [] => rfl
  | (k, v) :: t => by
    simp only [List.map_cons, readProps, readProps_json t]
    rfl

theorem parseEndpoints_json : ∀ d : List (Properties × Address), (∀ e ∈ d, AddressOK e.2) →
    parseEndpoints (d.map fun e => (Json.arr [propertiesJson e.1, .str e.2.text] : J N)) = .go (some d)
  | [], _ => rfl
  | (p, a) :: t, h => by
    have h1 : parseEndpoint (Json.arr [propertiesJson p, .str a.text] : J N) = .go (some (p, a)) := by
      unfold parseEndpoint propertiesJson
      simp only [readProps_json, parseAddress_text (h _ (List.mem_cons_self ..)), Step.bind]
      rfl
    simp only [List.map_cons, parseEndpoints, h1, Step.bind,
      parseEndpoints_json t fun e he => h e (List.mem_cons_of_mem _ he)]
    rfl

theorem parseEndpoints_ok : ∀ {l : List (J N)} {d : List (Properties × Address)},
    parseEndpoints l = .go (some d) → ∀ e ∈ d, AddressOK e.2
  | [], d, h, e, he => by
    simp only [parseEndpoints, Step.go.injEq, Option.some.injEq] at h
    subst h
    exact absurd he List.not_mem_nil
  | j :: t, d, h, e, he => by
    rw [parseEndpoints] at h
    cases hj : parseEndpoint j with
    | stop c => rw [hj] at h; cases h
    | crash => rw [hj] at h; cases h
    | go r =>
      rw [hj] at h
      simp only [Step.bind] at h
      cases r with
      | none => cases h
      | some x =>
        simp only at h
        cases ht : parseEndpoints t with
        | stop c => rw [ht] at h; cases h
        | crash => rw [ht] at h; cases h
        | go r =>
          rw [ht] at h
          simp only [Step.go.injEq] at h
          obtain ⟨d', rfl, rfl⟩ := Option.map_eq_some_iff.1 h
          rcases List.mem_cons.1 he with rfl | he
          · unfold parseEndpoint at hj
            split at hj
            · split at hj
              · cases hj
              · rename_i a _ _ _
                cases ha : parseAddress a with
                | stop c => rw [ha] at hj; cases hj
                | crash => rw [ha] at hj; cases hj
                | go r =>
                  rw [ha] at hj
                  simp only [Step.bind, Step.go.injEq] at hj
                  obtain ⟨a', rfl, rfl⟩ := Option.map_eq_some_iff.1 hj
                  exact parseAddress_ok ha
            · cases hj
          · exact parseEndpoints_ok ht e he

theorem parseDispatch_ok {j : J N} {d : List (Properties × Address)} (h : parseDispatch j = .go (some d)) :
    ∀ e ∈ d, AddressOK e.2 := by
  unfold parseDispatch at h
  split at h
  · exact parseEndpoints_ok h
  · cases h

/-- **C101.** A dispatch list that could be read by the client arrives at the endpoint as it is. -/
theorem C101_dispatch {j : J N} {d : List (Properties × Address)} (h : parseDispatch j = .go (some d)) :
    parseDispatch (dispatchJson d : J N) = .go (some d) :=
  parseEndpoints_json d (parseDispatch_ok h)

theorem insert_last {m : Properties} {k v : Str} (h : ∀ p ∈ m, p.1 < k) :
    OMap.insertList (fun _ new => new) k v m = m ++ [(k, v)] := by
  induction m with
  | nil => rfl
  | cons a t ih =>
    obtain ⟨k', v'⟩ := a
    have hlt := h _ (List.mem_cons_self ..)
    simp only at hlt
    unfold OMap.insertList
    rw [if_neg (lt_asymm hlt), if_neg (ne_of_gt hlt), ih fun p hp => h p (List.mem_cons_of_mem _ hp)]
    rfl

theorem insert_all : ∀ (props m : Properties), Ascending (m ++ props) →
    props.foldl (fun m p => OMap.insertList (fun _ new => new) p.1 p.2 m) m = m ++ props
  | [], m, _ => by simp
  | (k, v) :: t, m, h => by
    have hlt : ∀ p ∈ m, p.1 < k := fun p hp => by
      unfold Ascending at h
      exact (List.pairwise_append.1 h).2.2 p hp (k, v) (List.mem_cons_self ..)
    rw [List.foldl_cons, insert_last hlt, insert_all t (m ++ [(k, v)]) (by rw [List.append_assoc]; exact h)]
    simp

/-- **C101.** The shard of the target cache a request is for is the one described by the properties and the dispatch
list of the client; different properties or lists mean different shards. -/
theorem C101_shard {h : Hashing N} {address : Option Address} {props : Properties} (hp : Ascending props) {j : J N}
    {d : List (Properties × Address)} (hd : parseDispatch j = .go (some d)) :
    requestShard h address props (dispatchJson d) = .go (describe h address props d) ∧
    (Json.NumText h.text → ∀ {props' : Properties} {j' : J N} {d' : List (Properties × Address)}, Ascending props' →
      parseDispatch j' = .go (some d') →
      (requestShard h address props' (dispatchJson d') = requestShard h address props (dispatchJson d) ↔
        props' = props ∧ d' = d)) := by
  have key : ∀ {props : Properties} {j : J N} {d : List (Properties × Address)}, Ascending props →
      parseDispatch j = .go (some d) →
      requestShard h address props (dispatchJson d) = .go (describe h address props d) := by
    intro props j d hp hd
    unfold requestShard
    rw [C101_dispatch hd]
    simp only [Step.bind]
    rw [insert_all props [] hp, List.nil_append]
  refine ⟨key hp hd, fun hN props' j' d' hp' hd' => ?_⟩
  rw [key hp hd, key hp' hd', Step.go.injEq, C75_backend h hN]
  exact ⟨fun e => e.2, fun e => ⟨rfl, e⟩⟩

/-- C101 does not hold for all requests: a port with too many digits in a dispatch list terminates the endpoint, just as
one in an argument terminates `just`. -/
theorem C101_violation_port (h : Hashing N) (address : Option Address) (props : Properties) :
    requestShard h address props (.arr [.arr [.obj [], .str "host:99999999999".toList]]) = .crash ∧
    parseAddress "host:99999999999".toList = .crash := by
  have : parseAddress "host:99999999999".toList = .crash := by decide +kernel
  refine ⟨?_, this⟩
  unfold requestShard parseDispatch
  simp only [parseEndpoints, parseEndpoint, readProps, this, Step.bind]

/-! ## Keys -/

theorem fromJson_json {h : Hashing N} {ofNat : Nat → N} {v : Value N} (hv : IsJson v) :
    fromJson ofNat (json h true v) = v := by
  induction hv with
  | none => simp only [json, fromJson]
  | bool b => simp only [json, fromJson]
  | num n => simp only [json, fromJson]
  | str s => simp only [json, fromJson]
  | @list l hl ih =>
    have : ∀ l : List (Value N), (∀ v ∈ l, fromJson ofNat (json h true v) = v) →
        fromList ofNat (jsonList h true l) = l := by
      intro l
      induction l with
      | nil => intro _; simp only [jsonList, fromList]
      | cons v t iht =>
        intro hh
        simp only [jsonList, fromList]
        rw [hh v (List.mem_cons_self ..), iht fun w hw => hh w (List.mem_cons_of_mem _ hw)]
    simp only [json, fromJson]
    rw [this l ih]
  | @map m hm ih =>
    have : ∀ m : List (Str × Value N), (∀ kv ∈ m, fromJson ofNat (json h true kv.2) = kv.2) →
        fromItems ofNat (jsonItems h true m) = m := by
      intro m
      induction m with
      | nil => intro _; simp only [jsonItems, fromItems]
      | cons v t iht =>
        intro hh
        obtain ⟨k, v⟩ := v
        simp only [jsonItems, fromItems]
        rw [hh _ (List.mem_cons_self ..), iht fun w hw => hh w (List.mem_cons_of_mem _ hw)]
    simp only [json, fromJson]
    rw [this m ih]

theorem prune_assoc {m : List (Str × Value N)} : ∀ (vars : List Str) (acc : List (Str × Value N)), Ascending acc →
    (∀ k v, assoc k acc = some v → v = (assoc k m).getD .none) →
    Ascending (vars.foldl (fun acc k => OMap.insertList (fun old _ => old) k ((assoc k m).getD .none) acc) acc) ∧
    ∀ k, assoc k (vars.foldl (fun acc k => OMap.insertList (fun old _ => old) k ((assoc k m).getD .none) acc) acc) =
      if k ∈ vars then some ((assoc k m).getD .none) else assoc k acc
  | [], acc, ha, _ => ⟨ha, fun k => by simp⟩
  | x :: t, acc, ha, hacc => by
    have ha' := OMap.insertList_asc (fun old _ => old) x ((assoc x m).getD .none) acc ha
    have hx : ∀ k, assoc k (OMap.insertList (fun old _ => old) x ((assoc x m).getD .none) acc) =
        if k = x then some ((assoc x m).getD .none) else assoc k acc := fun k => by
      rw [assoc_insertList _ _ _ _ ha]
      by_cases hk : k = x
      · rw [if_pos hk, if_pos hk]
        cases hx : assoc x acc with
        | none => rfl
        | some v => exact congrArg some (hacc x v hx)
      · rw [if_neg hk, if_neg hk]
    obtain ⟨h1, h2⟩ := prune_assoc t _ ha' fun k v hk => by
      rw [hx] at hk
      by_cases e : k = x
      · rw [if_pos e] at hk; rw [e]; exact (Option.some.inj hk).symm
      · rw [if_neg e] at hk; exact hacc k v hk
    refine ⟨h1, fun k => ?_⟩
    rw [List.foldl_cons, h2, hx]
    by_cases e : k = x
    · subst e; simp
    · by_cases ht : k ∈ t
      · simp [ht]
      · simp [ht, e]

/-- The values of the variables, sorted by name. -/
theorem prune_spec {vars : List Str} {m c : List (Str × Value N)} (h : prune vars (.map m) = .go c) :
    Ascending c ∧ ∀ k, assoc k c = if k ∈ vars then some ((assoc k m).getD .none) else none := by
  cases vars with
  | nil =>
    simp only [prune, Step.go.injEq] at h
    subst h
    exact ⟨List.Pairwise.nil, fun k => by simp [assoc]⟩
  | cons x t =>
    simp only [prune, Step.go.injEq] at h
    subst h
    exact prune_assoc (m := m) (x :: t) [] List.Pairwise.nil fun k v hk => nomatch hk

/-- **C101.** The configuration of an export target, which the client pruned to the flexible variables, is left as it is
on the endpoint. -/
theorem C101_pruned {vars : List Str} {m c : List (Str × Value N)} (h : prune vars (.map m) = .go c) :
    prune vars (.map c) = .go c := by
  cases hc : prune vars (.map c) with
  | stop x => cases vars <;> simp [prune] at hc
  | crash => cases vars <;> simp [prune] at hc
  | go c' =>
    obtain ⟨h1, h2⟩ := prune_spec h
    obtain ⟨h3, h4⟩ := prune_spec hc
    congr 1
    refine ascending_ext h3 h1 fun k => ?_
    rw [h4, h2]
    by_cases hk : k ∈ vars <;> simp [hk]

/-- The JSON value whose text is the blob of a key (Verif.TC.keyText). -/
def keyJson (h : Hashing N) (a : KeyArgs N) : J N :=
  .obj [("effective_config".toList, .str (h.dump (json h true (.map a.config)))),
    ("repo_key".toList, .str a.repoKey),
    ("target_name".toList, .str (h.dump (.arr [.str a.module, .str a.name])))]

/-- C101 (configurations made of JSON values): the endpoint reads from the blob of a key the repository key, the target
in the main repository and the configuration it was made of. -/
theorem C101_asked_partial {h : Hashing N} {parseJson : Str → Option (J N)} (ofNat : Nat → N)
    (bind : Str → Str → Option Str) {a : KeyArgs N} (hm : NormalModule a.module) (hc : ∀ kv ∈ a.config, IsJson kv.2)
    (h1 : parseJson (h.dump (.arr [.str a.module, .str a.name])) = some (.arr [.str a.module, .str a.name]))
    (h2 : parseJson (h.dump (json h true (.map a.config))) = some (json h true (.map a.config))) :
    Json.dump h.text (Json.pretty 2) 0 (keyJson h a) = keyText h a ∧
    readKey parseJson ofNat bind (keyJson h a) =
      .go ⟨a.repoKey, ⟨"0".toList, a.module, a.name, .target⟩, .map a.config⟩ := by
  refine ⟨rfl, ?_⟩
  have e1 : readRepoKey (keyJson h a) = .go ([("effective_config".toList, .str (h.dump (json h true (.map a.config)))),
    ("repo_key".toList, .str a.repoKey),
    ("target_name".toList, .str (h.dump (.arr [.str a.module, .str a.name])))], a.repoKey) := rfl
  have e2 : Names.parse bind (.arr [.str a.module, .str a.name] : J N) ⟨"0".toList, [], [], .target⟩ =
      some ⟨"0".toList, a.module, a.name, .target⟩ := by
    simp only [Names.parse, parse2, string?, mk, normalModule_of_normal hm]
  unfold readKey
  rw [e1]
  simp only [Step.bind, readTarget]
  have e3 : stringAt Code.failedPrecondition .failedPrecondition "target_name".toList
      ([("effective_config".toList, .str (h.dump (json h true (.map a.config)))),
        ("repo_key".toList, .str a.repoKey),
        ("target_name".toList, .str (h.dump (.arr [.str a.module, .str a.name])))] : List (Str × J N)) =
      .go (h.dump (.arr [.str a.module, .str a.name])) := rfl
  have e4 : stringAt Code.failedPrecondition .failedPrecondition "effective_config".toList
      ([("effective_config".toList, .str (h.dump (json h true (.map a.config)))),
        ("repo_key".toList, .str a.repoKey),
        ("target_name".toList, .str (h.dump (.arr [.str a.module, .str a.name])))] : List (Str × J N)) =
      .go (h.dump (json h true (.map a.config))) := rfl
  rw [e3]
  simp only [h1, Step.orStop]
  rw [e4]
  simp only [h2]
  rw [e2]
  simp only [fromJson_json (IsJson.map hc)]

/-- C101 (configurations made of JSON values): the target-cache key the endpoint computes when analysing what was asked for
is the one it was asked for. -/
theorem C101_key_partial {plain plain' : Str → Str} {C : Repo.Config} {R R' : List (Str × Str)}
    (hs : Repo.Setup plain C R) {repo t : Str} (ht : Repo.storedText C R repo = some t) {j : Json Empty}
    (hj : Json.dump Empty.elim (Json.pretty 2) 0 j = t) {env : Repos}
    (hk : ∀ w c l, Repo.obs (Repo.data C) w repo = some (.fixed c l) → AllKnown env c) {C' : List (Str × SInfo)}
    (hC : determineRoots env j = some C') (hs' : Repo.Setup plain' (config C') R') {blob : Str → Str} {h : Hashing N}
    {parseJson : Str → Option (J N)} (ofNat : Nat → N) (bind : Str → Str → Option Str) {a : KeyArgs N} {size : Nat}
    (hr : Repo.repositoryKey blob C R repo = some (a.repoKey, size)) (hm : NormalModule a.module)
    (hc : ∀ kv ∈ a.config, IsJson kv.2) {vars : List Str} {m : List (Str × Value N)}
    (hp : prune vars (.map m) = .go a.config)
    (h1 : parseJson (h.dump (.arr [.str a.module, .str a.name])) = some (.arr [.str a.module, .str a.name]))
    (h2 : parseJson (h.dump (json h true (.map a.config))) = some (json h true (.map a.config))) :
    ∃ asked repoKey size c, readKey parseJson ofNat bind (keyJson h a) = .go asked ∧ asked.repoKey = a.repoKey ∧
      Repo.repositoryKey blob (config C') R' asked.target.repo = some (repoKey, size) ∧
      prune vars asked.config = .go c ∧
      computeKey h blob ⟨repoKey, asked.target.module, asked.target.name, c⟩ = computeKey h blob a := by
  obtain ⟨n', hn', _, hb⟩ := C100_key hs ht hj hk hC hs' (w := []) rfl
  cases hn'
  exact ⟨_, a.repoKey, size, a.config, (C101_asked_partial ofNat bind hm hc h1 h2).2, rfl, (hb blob).trans hr,
    C101_pruned hp, rfl⟩

/-- C101 does not hold for all requests: if the configuration of a key is no map, analysing an export target with a
flexible variable terminates the endpoint. -/
theorem C101_violation_config (h : Hashing N) (parseJson : Str → Option (J N)) (ofNat : Nat → N)
    (bind : Str → Str → Option Str) (repoKey x : Str) (vars : List Str)
    (h1 : parseJson (h.dump (.arr [.str [], .str ['t']])) = some (.arr [.str [], .str ['t']]))
    (h2 : parseJson (h.dump (.arr [])) = some (.arr [])) :
    ∃ a, readKey parseJson ofNat bind (.obj [("effective_config".toList, .str (h.dump (.arr []))),
        ("repo_key".toList, .str repoKey), ("target_name".toList, .str (h.dump (.arr [.str [], .str ['t']])))]) = .go a ∧
      prune (x :: vars) a.config = .crash := by
  refine ⟨⟨repoKey, ⟨"0".toList, [], ['t'], .target⟩, .list []⟩, ?_, rfl⟩
  unfold readKey
  have e1 : ∀ (c t : J N), readRepoKey (.obj [("effective_config".toList, c), ("repo_key".toList, .str repoKey),
    ("target_name".toList, t)]) = .go ([("effective_config".toList, c), ("repo_key".toList, .str repoKey),
    ("target_name".toList, t)], repoKey) := fun _ _ => rfl
  rw [e1]
  simp only [Step.bind, readTarget]
  have e3 : ∀ (c : J N) (t : Str), stringAt Code.failedPrecondition .failedPrecondition "target_name".toList
      [("effective_config".toList, c), ("repo_key".toList, .str repoKey), ("target_name".toList, .str t)] = .go t :=
    fun _ _ => rfl
  have e4 : ∀ (c : Str) (t : J N), stringAt Code.failedPrecondition .failedPrecondition "effective_config".toList
      [("effective_config".toList, .str c), ("repo_key".toList, .str repoKey), ("target_name".toList, t)] = .go c :=
    fun _ _ => rfl
  rw [e3]
  simp only [h1, Step.orStop]
  rw [e4]
  simp only [h2]
  have e2 : Names.parse bind (.arr [.str [], .str ['t']] : J N) ⟨"0".toList, [], [], .target⟩ =
      some ⟨"0".toList, [], ['t'], .target⟩ := by
    simp only [Names.parse, parse2, string?, mk]
    rw [normalModule_of_normal (m := []) ⟨[], rfl, fun a ha => absurd ha List.not_mem_nil⟩]
  rw [e2]
  simp only [fromJson, fromList]

/-- **C101 (reading a dispatch list).**  A dispatch list that is read is a list of pairs, each of properties, all of them strings, and
an address; and what is read are these. -/
theorem C101_dispatch_form {j : J N} {d : List (Properties × Address)} (h : parseDispatch j = .go (some d)) :
    ∃ l, j = .arr l ∧ List.Forall₂ (fun e (x : Properties × Address) => ∃ a,
      e = .arr [.obj (x.1.map fun kv => (kv.1, .str kv.2)), .str a] ∧ parseAddress a = .go (some x.2)) l d := by
  have props : ∀ (l : List (Str × J N)) (p : Properties), readProps l = some p → l = p.map fun kv => (kv.1, .str kv.2) := by
    intro l
    induction l with
    | nil =>
      intro p hp
      cases hp
      rfl
    | cons e l ih =>
      intro p hp
      obtain ⟨k, v⟩ := e
      cases v with
      | str s =>
        rw [readProps, Option.map_eq_some_iff] at hp
        obtain ⟨q, h1, rfl⟩ := hp
        rw [ih q h1, List.map_cons]
      | _ => cases hp
  have one : ∀ (e : J N) x, parseEndpoint e = .go (some x) → ∃ a,
      e = .arr [.obj (x.1.map fun kv => (kv.1, .str kv.2)), .str a] ∧ parseAddress a = .go (some x.2) := by
    intro e x hx
    unfold parseEndpoint at hx
    split at hx
    · rename_i ps a
      split at hx
      · cases hx
      · rename_i p hp
        cases ha : parseAddress a with
        | stop => rw [ha] at hx; cases hx
        | crash => rw [ha] at hx; cases hx
        | go r =>
          rw [ha] at hx
          simp only [Step.bind] at hx
          injection hx with hx
          rw [Option.map_eq_some_iff] at hx
          obtain ⟨ad, rfl, rfl⟩ := hx
          exact ⟨a, by rw [props ps p hp], ha⟩
    · cases hx
  have all : ∀ (l : List (J N)) d, parseEndpoints l = .go (some d) → List.Forall₂ (fun e (x : Properties × Address) => ∃ a,
      e = .arr [.obj (x.1.map fun kv => (kv.1, .str kv.2)), .str a] ∧ parseAddress a = .go (some x.2)) l d := by
    intro l
    induction l with
    | nil =>
      intro d hd
      cases hd
      exact .nil
    | cons e l ih =>
      intro d hd
      rw [parseEndpoints] at hd
      cases he : parseEndpoint e with
      | stop => rw [he] at hd; cases hd
      | crash => rw [he] at hd; cases hd
      | go r =>
        rw [he] at hd
        simp only [Step.bind] at hd
        cases r with
        | none => cases hd
        | some x =>
          dsimp only at hd
          cases hl : parseEndpoints l with
          | stop => rw [hl] at hd; cases hd
          | crash => rw [hl] at hd; cases hd
          | go r' =>
            rw [hl] at hd
            dsimp only at hd
            injection hd with hd
            rw [Option.map_eq_some_iff] at hd
            obtain ⟨l', rfl, rfl⟩ := hd
            exact .cons (one e x he) (ih l' hl)
  unfold parseDispatch at h
  split at h
  · exact ⟨_, rfl, all _ d h⟩
  · cases h

end Verif.Serve
