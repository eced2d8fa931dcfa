import Verif.Remote.ActionKey

/-!
# Keys of the action cache determine the action (C76)
-/

namespace Verif.RE

open Verif.Dig Verif.Wire Verif.Path

/-! ## Messages survive serialisation -/

theorem last_str (s : Str) : ((if s ≠ [] then [s] else []).getLast?).getD [] = s := by
  by_cases h : s = []
  · subst h; rfl
  · rw [if_pos h]; rfl

theorem read_pair (kv : Str × Str) : readPair (encode (pairFields kv)) = some kv := by
  unfold readPair pairFields
  rw [decode_encode, Option.bind_some]
  unfold strAt
  rw [bytesAt_append, bytesAt_append, bytesAt_str, bytesAt_str, bytesAt_str, bytesAt_str]
  simp only [true_and, show ¬ (2 = 1) by decide, show ¬ (1 = 2) by decide, false_and, if_false, List.append_nil, List.nil_append]
  rw [last_str, last_str]

theorem read_pairs : ∀ l : List (Str × Str), readPairs (pairs l) = some l
  | [] => rfl
  | kv :: l => by
    have : pairs (kv :: l) = encode (pairFields kv) :: pairs l := rfl
    rw [this, readPairs, read_pair, Option.bind_some, read_pairs l, Option.bind_some]

theorem bytesAt_nil (k : Nat) : bytesAt k [] = [] := rfl

theorem command_read (c : Command) : Command.read (encode c.fields) = some c := by
  have h1 : bytesAt 1 c.fields = c.args := by
    simp only [Command.fields, bytesAt_append, bytesAt_cons, bytesAt_repeated, bytesAt_str]; simp
  have h2 : bytesAt 2 c.fields = pairs c.env := by
    simp only [Command.fields, bytesAt_append, bytesAt_cons, bytesAt_repeated, bytesAt_str]; simp
  have h3 : bytesAt 3 c.fields = c.files := by
    simp only [Command.fields, bytesAt_append, bytesAt_cons, bytesAt_repeated, bytesAt_str]; simp
  have h4 : bytesAt 4 c.fields = c.dirs := by
    simp only [Command.fields, bytesAt_append, bytesAt_cons, bytesAt_repeated, bytesAt_str]; simp
  have h5 : bytesAt 5 c.fields = [encode (platformFields c.platform)] := by
    simp only [Command.fields, bytesAt_append, bytesAt_cons, bytesAt_repeated, bytesAt_str]; simp
  have h6 : bytesAt 6 c.fields = if c.cwd ≠ [] then [c.cwd] else [] := by
    simp only [Command.fields, bytesAt_append, bytesAt_cons, bytesAt_repeated, bytesAt_str]; simp
  have h7 : bytesAt 7 c.fields = c.paths := by
    simp only [Command.fields, bytesAt_append, bytesAt_cons, bytesAt_repeated, bytesAt_str]; simp
  have hm : messageAt 5 c.fields = some (platformFields c.platform) := by
    unfold messageAt strAt
    rw [h5]
    exact decode_encode _
  have hp : bytesAt 1 (platformFields c.platform) = pairs c.platform := by
    unfold platformFields
    rw [bytesAt_repeated, if_pos rfl]
  unfold Command.read
  rw [decode_encode, Option.bind_some, h2, read_pairs, Option.bind_some, hm, Option.bind_some, hp, read_pairs,
    Option.bind_some, h1, h3, h4, h7]
  unfold strAt
  rw [h6, last_str]

/-- A number of type `int64`. -/
def Int64 (i : Int) : Prop := -2 ^ 63 ≤ i ∧ i < 2 ^ 63

theorem toUnsigned_zero {i : Int} (h : Int64 i) (h0 : i ≠ 0) : toUnsigned i ≠ 0 := by
  intro e
  have := toSigned_toUnsigned h
  rw [e] at this
  exact h0 (by simpa [toSigned] using this.symm)

theorem last_int {i : Int} (h : Int64 i) :
    toSigned (((if i ≠ 0 then [toUnsigned i] else []).getLast?).getD 0) = i := by
  by_cases h0 : i = 0
  · subst h0; rfl
  · rw [if_pos h0]
    exact toSigned_toUnsigned h

theorem digest_read (w : Dig.Wire) (h : Int64 w.size) : readDigest (digestFields w) = w := by
  unfold readDigest digestFields strAt intAt
  rw [bytesAt_append, numsAt_append, bytesAt_str, bytesAt_int, numsAt_str, numsAt_int]
  simp only [true_and, List.append_nil, List.nil_append]
  rw [last_str, last_int h]

theorem action_read (a : ActionMsg) (h1 : Int64 a.command.size) (h2 : Int64 a.root.size) (h3 : Int64 a.seconds)
    (h4 : Int64 a.nanos) : ActionMsg.read (encode a.fields) = some a := by
  have e1 : bytesAt 1 a.fields = [encode (digestFields a.command)] := by
    simp [ActionMsg.fields, bytesAt_append, bytesAt_cons, bytesAt_bool, bytesAt_nil]
  have e2 : bytesAt 2 a.fields = [encode (digestFields a.root)] := by
    simp [ActionMsg.fields, bytesAt_append, bytesAt_cons, bytesAt_bool, bytesAt_nil]
  have e6 : bytesAt 6 a.fields = [encode (durationFields a.seconds a.nanos)] := by
    simp [ActionMsg.fields, bytesAt_append, bytesAt_cons, bytesAt_bool, bytesAt_nil]
  have e10 : bytesAt 10 a.fields = [encode (platformFields a.platform)] := by
    simp [ActionMsg.fields, bytesAt_append, bytesAt_cons, bytesAt_bool, bytesAt_nil]
  have e7 : boolAt 7 a.fields = a.doNotCache := by
    unfold boolAt ActionMsg.fields
    rw [numsAt_bytes, numsAt_bytes, numsAt_bytes, numsAt_append, numsAt_bool]
    cases a.doNotCache <;> rfl
  have msg : ∀ (k : Nat) (l : List Field), bytesAt k a.fields = [encode l] → messageAt k a.fields = some l := by
    intro k l h
    unfold messageAt strAt
    rw [h]
    exact decode_encode _
  have hd : intAt 1 (durationFields a.seconds a.nanos) = a.seconds ∧
      intAt 2 (durationFields a.seconds a.nanos) = a.nanos := by
    unfold intAt durationFields
    rw [numsAt_append, numsAt_append, numsAt_int, numsAt_int, numsAt_int, numsAt_int]
    simp only [true_and, show ¬ (2 = 1) by decide, show ¬ (1 = 2) by decide, false_and, if_false, List.append_nil, List.nil_append]
    exact ⟨last_int h3, last_int h4⟩
  have hp : bytesAt 1 (platformFields a.platform) = pairs a.platform := by
    unfold platformFields
    rw [bytesAt_repeated, if_pos rfl]
  unfold ActionMsg.read
  rw [decode_encode, Option.bind_some, msg 1 _ e1, Option.bind_some, msg 2 _ e2, Option.bind_some, msg 6 _ e6,
    Option.bind_some, msg 10 _ e10, Option.bind_some, hp, read_pairs, Option.bind_some, digest_read _ h1,
    digest_read _ h2, hd.1, hd.2, e7]

/-! ## Digests -/

/-- Two different contents with the same hash. -/
def Collision (blob : Str → Str) (a b : Str) : Prop := a ≠ b ∧ blob a = blob b

/-- A request as it can occur: the root directory has a proper digest, the timeout is an `int64`. -/
structure Request.Proper (t : HashType) (r : Request) : Prop where
  valid : r.root.Valid
  type : r.root.type = t
  timeout : Int64 r.timeout

theorem toBazel_size {d : Digest} {w : Dig.Wire} (h : toBazel d = some w) : Int64 w.size := by
  unfold toBazel at h
  split at h
  · cases h
    unfold Int64
    dsimp only
    omega
  · cases h

theorem tdiv_bounds (i : Int) : Int.tdiv i 1000 * 1000 + Int.tmod i 1000 = i ∧ -1000 < Int.tmod i 1000 ∧
    Int.tmod i 1000 < 1000 := by
  refine ⟨by rw [Int.mul_comm]; exact Int.mul_tdiv_add_tmod i 1000, ?_, Int.tmod_lt_of_pos i (by decide)⟩
  exact Int.neg_lt_of_neg_lt (by
    have := Int.tmod_lt_of_pos (-i) (b := 1000) (by decide)
    rw [Int.neg_tmod] at this
    omega)

theorem action_proper {t : HashType} {blob : Str → Str} {r : Request} {a : ActionMsg} (hr : r.Proper t)
    (h : r.action t blob = some a) :
    ActionMsg.read (encode a.fields) = some a ∧ toBazel (blobDigest t blob r.commandText) = some a.command ∧
      toBazel r.root = some a.root ∧ a.seconds * 1000 + a.nanos / 1000000 = r.timeout ∧
      a.doNotCache = r.skipCache ∧ a.platform = r.props.items := by
  unfold Request.action at h
  cases hc : toBazel (blobDigest t blob r.commandText) with
  | none => rw [hc] at h; cases h
  | some c =>
    rw [hc, Option.bind_some] at h
    cases hroot : toBazel r.root with
    | none => rw [hroot] at h; cases h
    | some w =>
      rw [hroot, Option.bind_some] at h
      cases h
      obtain ⟨hb1, hb2, hb3⟩ := tdiv_bounds r.timeout
      have ht := hr.timeout
      unfold Int64 at ht
      refine ⟨action_read _ (toBazel_size hc) (toBazel_size hroot) ?_ ?_, rfl, rfl, ?_, rfl, rfl⟩
      · unfold Int64; dsimp only; omega
      · unfold Int64; dsimp only; omega
      · dsimp only; omega

/-- The messages built for two requests collide: two messages that are different but have the same hash. -/
def KeyCollision (t : HashType) (blob : Str → Str) (r r' : Request) : Prop :=
  Collision blob r.commandText r'.commandText ∨
    ∃ s s', r.actionText t blob = some s ∧ r'.actionText t blob = some s' ∧ Collision blob s s'

/-- C76: two requests for which the same key is computed are the same request, or their messages collide. -/
theorem C76_key (t : HashType) (blob : Str → Str) (r r' : Request) (hr : r.Proper t) (hr' : r'.Proper t) (d : Digest)
    (h : r.digest t blob = some d) (h' : r'.digest t blob = some d) : r = r' ∨ KeyCollision t blob r r' := by
  unfold Request.digest at h h'
  cases hs : r.actionText t blob with
  | none => rw [hs] at h; cases h
  | some s =>
    cases hs' : r'.actionText t blob with
    | none => rw [hs'] at h'; cases h'
    | some s' =>
      rw [hs, Option.bind_some] at h
      rw [hs', Option.bind_some] at h'
      rw [← h'] at h
      have hb : blob s = blob s' := by
        have := Option.some.inj h
        exact congrArg Digest.hash this
      by_cases hss : s = s'
      · subst hss
        cases ha : r.action t blob with
        | none => unfold Request.actionText at hs; rw [ha] at hs; cases hs
        | some a =>
          cases ha' : r'.action t blob with
          | none => unfold Request.actionText at hs'; rw [ha'] at hs'; cases hs'
          | some a' =>
            unfold Request.actionText at hs hs'
            rw [ha, Option.bind_some] at hs
            rw [ha', Option.bind_some] at hs'
            obtain ⟨p1, p2, p3, p4, p5, p6⟩ := action_proper hr ha
            obtain ⟨q1, q2, q3, q4, q5, q6⟩ := action_proper hr' ha'
            have haa : a = a' := by
              have e1 := Option.some.inj hs
              have e2 := Option.some.inj hs'
              rw [e1] at p1
              rw [e2, p1] at q1
              exact Option.some.inj q1
            subst haa
            by_cases hcc : r.commandText = r'.commandText
            · left
              have hcmd : r.command = r'.command := by
                have e1 := command_read r.command
                have e2 := command_read r'.command
                have e3 : encode r.command.fields = encode r'.command.fields := hcc
                rw [e3, e2] at e1
                exact (Option.some.inj e1).symm
              have hroot : r.root = r'.root :=
                C44_injective _ _ hr.valid hr'.valid (hr.type.trans hr'.type.symm) _ p3 q3
              have htime : r.timeout = r'.timeout := p4.symm.trans q4
              have hskip : r.skipCache = r'.skipCache := p5.symm.trans q5
              obtain ⟨args, cwd, files, dirs, paths, ⟨env, henv⟩, ⟨props, hprops⟩, root, timeout, skip⟩ := r
              obtain ⟨args', cwd', files', dirs', paths', ⟨env', henv'⟩, ⟨props', hprops'⟩, root', timeout', skip'⟩ := r'
              unfold Request.command at hcmd
              simp only [Command.mk.injEq] at hcmd
              obtain ⟨g1, g2, g3, g4, g5, g6, g7⟩ := hcmd
              simp only at hroot htime hskip
              subst g1 g2 g3 g4 g5 g6 g7 hroot htime hskip
              rfl
            · right; left
              refine ⟨hcc, ?_⟩
              rw [← q2] at p2
              have size : ∀ d : Digest, toBazel d = toBazel (blobDigest t blob r'.commandText) → d.type = t →
                  (d.tree = false) → d.hash = (blobDigest t blob r'.commandText).hash := by
                intro d e ht hf
                rw [q2] at e
                unfold toBazel at e q2
                split at e
                · split at q2
                  · have e := Option.some.inj e
                    have q2 := Option.some.inj q2
                    rw [← q2] at e
                    have e := congrArg Dig.Wire.hash e
                    dsimp only at e
                    rw [ht] at e
                    have htt : (blobDigest t blob r'.commandText).type = t := rfl
                    rw [htt] at e
                    cases hn : t.native
                    · rw [hn] at e; simpa using e
                    · rw [hn] at e
                      simp only [if_true] at e
                      unfold prefixed at e
                      rw [hf] at e
                      simpa [blobDigest] using e
                  · cases q2
                · cases e
              exact size _ p2 rfl rfl
      · right; right
        exact ⟨s, s', hs, hs', hss, hb⟩

/-- Keys for executions with and without caching are different, unless there is a collision. -/
theorem C76_uncached (t : HashType) (blob : Str → Str) (r r' : Request) (hr : r.Proper t) (hr' : r'.Proper t)
    (hs : r.skipCache = true) (hs' : r'.skipCache = false) (d : Digest) (h : r.digest t blob = some d)
    (h' : r'.digest t blob = some d) : KeyCollision t blob r r' := by
  rcases C76_key t blob r r' hr hr' d h h' with e | e
  · subst e; rw [hs] at hs'; cases hs'
  · exact e

/-! ## Histories -/

/-- C76: starting with an empty action cache, whatever is answered without running is the result of an earlier execution
of the very same command, in the same directory with the same content, with the same environment, properties, timeout
and outputs, unless the messages for these two executions collide. -/
theorem C76_served (t : HashType) (blob : Str → Str) (qs : List (Exec.Request Core))
    (hp : ∀ q ∈ qs, ∀ skip, (requestOf q.action skip).Proper t) (i : Nat) (q : Exec.Request Core)
    (o : Exec.Outcome Digest) (hq : qs[i]? = some q)
    (ho : (Exec.executeAll (fun a skip => (requestOf a skip).digest t blob) (fun _ => none) qs)[i]? = some o)
    (r : Exec.Response Digest) (hr : o.response = some r) (hn : o.ran = false) :
    ∃ (j : Nat) (q' : Exec.Request Core) (o' : Exec.Outcome Digest), j < i ∧ qs[j]? = some q' ∧
      (Exec.executeAll (fun a skip => (requestOf a skip).digest t blob) (fun _ => none) qs)[j]? = some o' ∧
      o'.ran = true ∧ q'.run.exit = some 0 ∧ o'.response = some ⟨r.digest, r.result, false⟩ ∧
      ((q'.action.core = q.action.core ∧ q'.action.files = q.action.files ∧ q'.action.dirs = q.action.dirs ∧
        q'.action.paths = q.action.paths) ∨
        KeyCollision t blob (requestOf q'.action false) (requestOf q.action false)) := by
  obtain ⟨-, j, q', o', h1, h2, h3, h4, h5, h6, h7, h8, -⟩ := Exec.C21_history _ qs i q o hq ho r hr hn
  have hm := hp q (List.mem_of_getElem? hq) false
  have hm' := hp q' (List.mem_of_getElem? h2) false
  cases hd : (requestOf q.action false).digest t blob with
  | none =>
    exfalso
    have hall : ∀ (qs : List (Exec.Request Core)) (c : Exec.Cache Digest) (j : Nat), qs[j]? = some q' →
        (Exec.executeAll (fun a skip => (requestOf a skip).digest t blob) c qs)[j]? = some o' →
        ∃ c', o' = Exec.execute (fun a skip => (requestOf a skip).digest t blob) c' q'.flag q'.action q'.run := by
      intro qs
      induction qs with
      | nil => intro c j h; cases h
      | cons x l ih =>
        intro c j h h'
        unfold Exec.executeAll at h'
        cases j with
        | zero =>
          simp only [List.getElem?_cons_zero, Option.some.injEq] at h h'
          subst h
          exact ⟨c, h'.symm⟩
        | succ j =>
          rw [List.getElem?_cons_succ] at h h'
          exact ih _ j h h'
    obtain ⟨c', e⟩ := hall qs _ j h2 h3
    have h5' : (requestOf q'.action false).digest t blob = none := h5.trans hd
    rw [e, h4] at h6
    have hflag : (!Exec.cacheEnabled Exec.CacheFlag.cacheOutput) = false := rfl
    unfold Exec.execute at h6
    simp only [hflag, h5'] at h6
    cases h6
  | some d =>
    refine ⟨j, q', o', h1, h2, h3, h6, h8, h7, ?_⟩
    rcases C76_key t blob _ _ hm' hm d (h5.trans hd) hd with e | e
    · refine Or.inl ⟨?_, congrArg Request.files e, congrArg Request.dirs e, congrArg Request.paths e⟩
      unfold requestOf at e
      simp only [Request.mk.injEq] at e
      obtain ⟨g1, g2, -, -, -, g6, g7, g8, g9, -⟩ := e
      cases hc : q'.action.core
      cases hc' : q.action.core
      rw [hc, hc'] at g1 g2 g6 g7 g8 g9
      simp only at g1 g2 g6 g7 g8 g9
      subst g1 g2 g6 g7 g8 g9
      rfl
    · exact Or.inr e

/-! ## The order of outputs -/

theorem insertSorted_perm (s : Str) : ∀ l, List.Perm (insertSorted s l) (s :: l)
  | [] => List.Perm.refl _
  | x :: t => by
    unfold insertSorted
    split
    · exact List.Perm.refl _
    · exact ((insertSorted_perm s t).cons x).trans (List.Perm.swap s x t)

theorem sortStrs_perm : ∀ l, List.Perm (sortStrs l) l
  | [] => List.Perm.refl _
  | x :: t => (insertSorted_perm x _).trans ((sortStrs_perm t).cons x)

theorem insertSorted_comm (a b : Str) : ∀ l, insertSorted a (insertSorted b l) = insertSorted b (insertSorted a l)
  | [] => by
    change (if a ≤ b then [a, b] else [b, a]) = (if b ≤ a then [b, a] else [a, b])
    rcases le_total a b with h | h
    · rw [if_pos h]
      split
      · next h' => rw [le_antisymm h h']
      · rfl
    · rw [if_pos h]
      split
      · next h' => rw [le_antisymm h h']
      · rfl
  | x :: t => by
    have ih := insertSorted_comm a b t
    by_cases ha : a ≤ x
    · by_cases hb : b ≤ x
      · rw [show insertSorted b (x :: t) = b :: x :: t by rw [insertSorted, if_pos hb],
          show insertSorted a (x :: t) = a :: x :: t by rw [insertSorted, if_pos ha]]
        by_cases hab : a ≤ b
        · rw [show insertSorted a (b :: x :: t) = a :: b :: x :: t by rw [insertSorted, if_pos hab]]
          by_cases hba : b ≤ a
          · rw [le_antisymm hab hba, insertSorted, if_pos (le_refl _)]
          · rw [insertSorted, if_neg hba, insertSorted, if_pos hb]
        · have hba : b ≤ a := (le_total a b).resolve_left hab
          rw [show insertSorted b (a :: x :: t) = b :: a :: x :: t by rw [insertSorted, if_pos hba], insertSorted,
            if_neg hab, insertSorted, if_pos ha]
      · have hba : ¬ b ≤ a := fun h => hb (le_trans h ha)
        rw [show insertSorted b (x :: t) = x :: insertSorted b t by rw [insertSorted, if_neg hb],
          show insertSorted a (x :: t) = a :: x :: t by rw [insertSorted, if_pos ha], insertSorted, if_pos ha,
          insertSorted, if_neg hba, insertSorted, if_neg hb]
    · by_cases hb : b ≤ x
      · have hab : ¬ a ≤ b := fun h => ha (le_trans h hb)
        rw [show insertSorted b (x :: t) = b :: x :: t by rw [insertSorted, if_pos hb],
          show insertSorted a (x :: t) = x :: insertSorted a t by rw [insertSorted, if_neg ha], insertSorted,
          if_neg hab, insertSorted, if_neg ha, insertSorted, if_pos hb]
      · rw [show insertSorted b (x :: t) = x :: insertSorted b t by rw [insertSorted, if_neg hb],
          show insertSorted a (x :: t) = x :: insertSorted a t by rw [insertSorted, if_neg ha], insertSorted,
          if_neg ha, insertSorted, if_neg hb, ih]

theorem sortStrs_congr {l l' : List Str} (h : List.Perm l l') : sortStrs l = sortStrs l' := by
  induction h with
  | nil => rfl
  | cons x _ ih => rw [sortStrs, sortStrs, ih]
  | swap x y l => rw [sortStrs, sortStrs, sortStrs, sortStrs, insertSorted_comm]
  | trans _ _ ih ih' => exact ih.trans ih'

theorem sortStrs_inj {l l' : List Str} (h : sortStrs l = sortStrs l') : List.Perm l l' :=
  (sortStrs_perm l).symm.trans (h ▸ sortStrs_perm l')

/-- C76: the order in which outputs are given does not matter. -/
theorem C76_order (s s' : Spec) (hf : List.Perm s.files s'.files) (hd : List.Perm s.dirs s'.dirs) (hr : s.root = s'.root)
    (ha : s.args = s'.args) (hc : s.cwd = s'.cwd) (he : s.env = s'.env) (hp : s.props = s'.props) (best : Bool)
    (timeout : Int) (skip : Bool) : s.request best timeout skip = s'.request best timeout skip := by
  unfold Spec.request
  rw [sortStrs_congr hf, sortStrs_congr hd, hr, ha, hc, he, hp]

/-! ## Properties and dispatch -/

theorem find_foldl_assign : ∀ (l : List (Str × Str)) (m : OMap Str Str) (k : Str), Ascending l →
    (l.foldl (fun m kv => m.assign kv.1 kv.2) m).find k = (assoc k l).or (m.find k)
  | [], m, k, _ => by simp [assoc]
  | (x, v) :: t, m, k, h => by
    have ht : Ascending t := (List.pairwise_cons.1 h).2
    have hx : assoc x t = none := assoc_eq_none_of_lt (fun p hp => (List.pairwise_cons.1 h).1 p hp)
    rw [List.foldl_cons, find_foldl_assign t _ k ht, OMap.find_assign]
    by_cases hk : k = x
    · subst hk
      rw [hx, if_pos rfl]
      simp [assoc]
    · rw [if_neg hk]
      have : assoc k ((x, v) :: t) = assoc k t := by
        simp [assoc, hk]
      rw [this]

/-- C76: the properties of an action win over the properties of the platform; there are no others. -/
theorem C76_properties (platform own : OMap Str Str) (k v : Str) :
    (mergeProps platform own).find k = some v ↔
      own.find k = some v ∨ (own.find k = none ∧ platform.find k = some v) := by
  unfold mergeProps
  rw [find_foldl_assign _ _ _ own.asc]
  change ((own.find k).or (platform.find k)) = some v ↔ _
  cases own.find k <;> simp

theorem matchesAll_iff (pred : List (Str × Str)) (props : OMap Str Str) :
    matchesAll pred props = true ↔ ∀ kv ∈ pred, props.find kv.1 = some kv.2 := by
  unfold matchesAll
  rw [List.all_eq_true]
  simp only [beq_iff_eq]

/-- C76: an action is dispatched to the endpoint of the first entry all of whose conditions are met by its
properties. -/
theorem C76_dispatch {E : Type} (props : OMap Str Str) : ∀ (l : List (List (Str × Str) × E)) (e : E),
    alternative props l = some e ↔ ∃ pre pred post, l = pre ++ (pred, e) :: post ∧
      (∀ kv ∈ pred, props.find kv.1 = some kv.2) ∧ ∀ x ∈ pre, ∃ kv ∈ x.1, props.find kv.1 ≠ some kv.2
  | [], e => by
    constructor
    · intro h; cases h
    · rintro ⟨pre, pred, post, h, -⟩
      cases pre <;> cases h
  | (p, x) :: t, e => by
    unfold alternative
    by_cases hm : matchesAll p props = true
    · rw [if_pos hm]
      constructor
      · intro h
        cases h
        exact ⟨[], p, t, rfl, (matchesAll_iff p props).1 hm, fun x hx => (nomatch hx)⟩
      · rintro ⟨pre, pred, post, h, h1, h2⟩
        cases pre with
        | nil => cases h; rfl
        | cons y pre =>
          cases h
          obtain ⟨kv, hkv, hne⟩ := h2 _ (List.mem_cons_self ..)
          exact absurd ((matchesAll_iff p props).1 hm kv hkv) hne
    · rw [if_neg hm, C76_dispatch props t e]
      constructor
      · rintro ⟨pre, pred, post, h, h1, h2⟩
        refine ⟨(p, x) :: pre, pred, post, by rw [h]; rfl, h1, ?_⟩
        intro y hy
        rcases List.mem_cons.1 hy with rfl | hy
        · refine Classical.byContradiction fun hno => hm ((matchesAll_iff p props).2 fun kv hkv => ?_)
          exact Classical.byContradiction fun hne => hno ⟨kv, hkv, hne⟩
        · exact h2 y hy
      · rintro ⟨pre, pred, post, h, h1, h2⟩
        cases pre with
        | nil => cases h; exact absurd ((matchesAll_iff p props).2 h1) hm
        | cons y pre =>
          cases h
          exact ⟨pre, pred, post, rfl, h1, fun z hz => h2 z (List.mem_cons_of_mem _ hz)⟩

/-! ## Actions of the graph -/

theorem places {cwd : Str} (hb : cwd.head? ≠ some '/') (hd : ['.', '.'] ∉ splitAt '/' cwd) {l l' : List Str}
    (h : List.Perm (l.map (rebase cwd)) (l'.map (rebase cwd))) (hl : ∀ p ∈ l, p.head? ≠ some '/')
    (hl' : ∀ p ∈ l', p.head? ≠ some '/') : List.Perm (l.map place) (l'.map place) := by
  have h2 := h.map (fun p => place (append cwd p))
  rw [List.map_map, List.map_map] at h2
  have e : ∀ l : List Str, (∀ p ∈ l, p.head? ≠ some '/') →
      l.map ((fun p => place (append cwd p)) ∘ rebase cwd) = l.map place := by
    intro l hl
    apply List.map_congr_left
    intro p hp
    exact (C43_rebase_partial cwd p hb (hl p hp) hd).1
  rw [e l hl, e l' hl'] at h2
  exact h2

/-- C76: if two actions of a build have the same key, and their messages do not collide, they run the same command with the same environment, properties
and timeout in the same directory with the same content, and the same places are collected. Missing: working
directories with `..` (`C43_violation`). -/
theorem C76_graph_partial (t : HashType) (blob : Str → Str) (platform platform' : OMap Str Str) (root root' : Digest)
    (n n' : Node) (best best' : Bool) (timeout timeout' : Int) (skip skip' : Bool)
    (hv : root.Valid ∧ root.type = t) (hv' : root'.Valid ∧ root'.type = t) (ht : Int64 timeout) (ht' : Int64 timeout')
    (hb : n.cwd.head? ≠ some '/') (hup : ['.', '.'] ∉ splitAt '/' n.cwd)
    (hrel : ∀ p ∈ n.files ++ n.dirs, p.head? ≠ some '/') (hrel' : ∀ p ∈ n'.files ++ n'.dirs, p.head? ≠ some '/')
    (d : Digest) (h : ((n.spec platform root).request best timeout skip).digest t blob = some d)
    (h' : ((n'.spec platform' root').request best' timeout' skip').digest t blob = some d) :
    KeyCollision t blob ((n.spec platform root).request best timeout skip)
        ((n'.spec platform' root').request best' timeout' skip') ∨
      (root = root' ∧ n.args = n'.args ∧ n.cwd = n'.cwd ∧ n.env = n'.env ∧ timeout = timeout' ∧ skip = skip' ∧
        (∀ k, (mergeProps platform n.props).find k = (mergeProps platform' n'.props).find k) ∧
        List.Perm (n.files.map place) (n'.files.map place) ∧ List.Perm (n.dirs.map place) (n'.dirs.map place)) := by
  rcases C76_key t blob _ _ ⟨hv.1, hv.2, ht⟩ ⟨hv'.1, hv'.2, ht'⟩ d h h' with e | e
  · right
    unfold Spec.request Node.spec at e
    simp only [Request.mk.injEq] at e
    obtain ⟨g1, g2, g3, g4, -, g6, g7, g8, g9, g10⟩ := e
    rw [← g2] at g3 g4
    refine ⟨g8, g1, g2, g6, g9, g10, fun k => by rw [g7], ?_, ?_⟩
    · exact places hb hup (sortStrs_inj g3) (fun p hp => hrel p (List.mem_append_left _ hp))
        (fun p hp => hrel' p (List.mem_append_left _ hp))
    · exact places hb hup (sortStrs_inj g4) (fun p hp => hrel p (List.mem_append_right _ hp))
        (fun p hp => hrel' p (List.mem_append_right _ hp))
  · exact Or.inl e

/-! ## Examples -/

namespace Example

/-- A hash function for the examples: not without collisions, but different for the messages below. -/
def sum (s : Str) : Nat := s.foldl (fun n c => (n * 31 + c.toNat + 7) % 1000003) 11

def hash (s : Str) : Str := List.replicate 40 (Char.ofNat (48 + sum s % 10))

def root : Digest := ⟨List.replicate 40 'a', .gitSHA1, true, 17⟩

def core : Core := ⟨root, ["cc".toList, "-c".toList], "work".toList, OMap.empty.assign "PATH".toList "/bin".toList,
  OMap.empty, 300500⟩

def action : Exec.Action Core := ⟨core, ["a.o".toList], [], [], .v20⟩

def good : Exec.Run := ⟨some 0, fun _ => .file ['d'], true⟩

def requests : List (Exec.Request Core) := [⟨.cacheOutput, action, good⟩, ⟨.cacheOutput, action, good⟩]

theorem proper (skip : Bool) : (requestOf action skip).Proper .gitSHA1 :=
  ⟨(by decide : root.Valid), rfl, (by unfold Int64; decide : Int64 300500)⟩

theorem key_some : ((requestOf action false).digest .gitSHA1 hash).isSome = true := by decide +kernel

/-- `C76_key` and `C76_uncached`: the same action once with and once without caching, with another key. -/
example : (requestOf action true).digest .gitSHA1 hash ≠ (requestOf action false).digest .gitSHA1 hash := by
  decide +kernel

/-- With a constant hash function there is a collision. -/
example : ((requestOf action true).digest .gitSHA1 fun _ => List.replicate 40 '0') =
    ((requestOf { action with dirs := [['d']] } true).digest .gitSHA1 fun _ => List.replicate 40 '0') ∧
    ((requestOf action true).digest .gitSHA1 fun _ => List.replicate 40 '0').isSome = true := by
  decide +kernel

/-- `C76_served` applies: the second execution is answered from the cache. -/
example : ((Exec.executeAll (fun a skip => (requestOf a skip).digest .gitSHA1 hash) (fun _ => none) requests)[1]?).map
    (fun o => (o.response.isSome, o.ran)) = some (true, false) := by decide +kernel

example : ∀ q ∈ requests, ∀ skip, (requestOf q.action skip).Proper .gitSHA1 := by
  intro q hq skip
  simp only [requests, List.mem_cons, List.not_mem_nil, or_false, or_self] at hq
  subst hq
  exact proper skip

def node : Node := ⟨["cc".toList], "work".toList, ["work/b.o".toList, "a.o".toList], [], OMap.empty,
  OMap.empty.assign "os".toList "linux".toList⟩

/-- The same, with outputs in other order and the property coming from the platform. -/
def node' : Node := ⟨["cc".toList], "work".toList, ["a.o".toList, "work/b.o".toList], [], OMap.empty, OMap.empty⟩

def platform : OMap Str Str := (OMap.empty.assign "os".toList "any".toList).assign "cpu".toList "x".toList

def platform' : OMap Str Str := (OMap.empty.assign "cpu".toList "x".toList).assign "os".toList "linux".toList

/-- `C76_graph_partial` applies: both nodes have the same key. -/
example : ((node.spec platform root).request false 1000 false).digest .gitSHA1 hash =
      ((node'.spec platform' root).request false 1000 false).digest .gitSHA1 hash ∧
    (((node.spec platform root).request false 1000 false).digest .gitSHA1 hash).isSome = true ∧
    root.Valid ∧ Int64 1000 ∧ node.cwd.head? ≠ some '/' ∧ ['.', '.'] ∉ splitAt '/' node.cwd ∧
    (∀ p ∈ node.files ++ node.dirs, p.head? ≠ some '/') ∧ ∀ p ∈ node'.files ++ node'.dirs, p.head? ≠ some '/' := by
  refine ⟨by decide +kernel, by decide +kernel, by decide, by unfold Int64; decide, by decide, by decide, by decide,
    by decide⟩

example : (node.spec platform root).request true 1000 false =
    ({ node.spec platform root with files := (node.spec platform root).files.reverse } : Spec).request true 1000 false :=
  C76_order _ { node.spec platform root with files := (node.spec platform root).files.reverse }
    (List.reverse_perm _).symm (List.Perm.refl _) rfl rfl rfl rfl rfl _ _ _

example : (mergeProps platform node.props).find "os".toList = some "linux".toList ∧
    (mergeProps platform node.props).find "cpu".toList = some "x".toList :=
  ⟨(C76_properties _ _ _ _).2 (Or.inl (by decide)), (C76_properties _ _ _ _).2 (Or.inr ⟨by decide, by decide⟩)⟩

example : alternative (mergeProps platform node.props)
    [([("os".toList, "any".toList)], 1), ([("os".toList, "linux".toList), ("cpu".toList, "x".toList)], 2), ([], 3)] =
      some 2 := by decide

end Example

end Verif.RE
