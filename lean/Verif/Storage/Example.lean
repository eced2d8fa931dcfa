import Mathlib.Data.List.Basic
import Verif.Storage.System

/-!
# A concrete environment

Simple injective "hashes" and serialisers satisfying all assumptions made about the environment.  Used
to show that the hypotheses of the theorems can be met, and for counter-examples.
-/

namespace Verif.Storage.Example

/-! ### Serialisation of lists of numbers and names -/

def encNats : List Nat → Bytes
  | [] => []
  | n :: ns => List.replicate n 1 ++ 0 :: encNats ns

def decNats : Nat → Bytes → Option (List Nat)
  | 0, [] => some []
  | _ + 1, [] => none
  | acc, b :: bs =>
    if b = 0 then (decNats 0 bs).map (acc :: ·)
    else decNats (acc + 1) bs

theorem dec_encNats (ns : List Nat) : decNats 0 (encNats ns) = some ns := by
  have key : ∀ n acc bs, decNats acc (List.replicate n 1 ++ 0 :: bs) =
      (decNats 0 bs).map ((acc + n) :: ·) := by
    intro n
    induction n with
    | zero => intro acc bs; cases acc <;> simp [decNats]
    | succ n ih =>
      intro acc bs
      rw [List.replicate_succ, List.cons_append]
      have : decNats acc (1 :: (List.replicate n 1 ++ 0 :: bs)) =
          decNats (acc + 1) (List.replicate n 1 ++ 0 :: bs) := by
        cases acc <;> simp [decNats]
      rw [this, ih, show acc + 1 + n = acc + (n + 1) by omega]
  induction ns with
  | nil => rfl
  | cons n ns ih => rw [encNats, key, ih]; simp

def natsOfIds : List Id → List Nat
  | [] => []
  | i :: is => i.map (fun c => c.toNat + 1) ++ 0 :: natsOfIds is

def idsOfNats : Id → List Nat → List Id
  | _, [] => []
  | acc, 0 :: ns => acc.reverse :: idsOfNats [] ns
  | acc, (n + 1) :: ns => idsOfNats (Char.ofNat n :: acc) ns

theorem ids_nats (is : List Id) : idsOfNats [] (natsOfIds is) = is := by
  have key : ∀ (i acc : Id) ns, idsOfNats acc (i.map (fun c => c.toNat + 1) ++ 0 :: ns) =
      (acc.reverse ++ i) :: idsOfNats [] ns := by
    intro i
    induction i with
    | nil => intro acc ns; simp [idsOfNats]
    | cons c i ih =>
      intro acc ns
      simp only [List.map_cons, List.cons_append, idsOfNats, ih]
      simp
  induction is with
  | nil => rfl
  | cons i is ih => simp only [natsOfIds, key, ih]; simp

def encIds (is : List Id) : Bytes := encNats (natsOfIds is)

def decIds (b : Bytes) : Option (List Id) := (decNats 0 b).map (idsOfNats [])

theorem dec_encIds (is : List Id) : decIds (encIds is) = some is := by
  simp [decIds, encIds, dec_encNats, ids_nats]

/-! ### Results and entries -/

def chars (b : Bytes) : Str := b.map (fun x => Char.ofNat x.toNat)

def bytes (s : Str) : Bytes := s.map (fun c => UInt8.ofNat c.toNat)

theorem bytes_chars (b : Bytes) : bytes (chars b) = b := by
  have : ∀ x : UInt8, UInt8.ofNat (Char.ofNat x.toNat).toNat = x := by
    intro x
    have h : x.toNat.isValidChar := Or.inl (by have := x.toNat_lt; omega)
    rw [Char.ofNat, dif_pos h]
    exact UInt8.ofNat_toNat
  induction b with
  | nil => rfl
  | cons x b ih =>
    show UInt8.ofNat (Char.ofNat x.toNat).toNat :: bytes (chars b) = _
    rw [this, ih]

def idsOfResult (r : Result) : List Id :=
  r.files.map (fun f => (if f.2 then 'x' else 'f') :: f.1) ++
    (r.links.map (fun l => 'l' :: chars l) ++
      (r.dirs.map (fun d => 'd' :: d) ++ r.symlinks.map (fun l => 's' :: chars l)))

def resultOfIds : List Id → Result
  | [] => ⟨[], [], [], []⟩
  | i :: is =>
    let r := resultOfIds is
    match i with
    | c :: i =>
      if c = 'x' then { r with files := (i, true) :: r.files }
      else if c = 'f' then { r with files := (i, false) :: r.files }
      else if c = 'l' then { r with links := bytes i :: r.links }
      else if c = 's' then { r with symlinks := bytes i :: r.symlinks }
      else { r with dirs := i :: r.dirs }
    | [] => r

theorem result_ids (r : Result) : resultOfIds (idsOfResult r) = r := by
  obtain ⟨fs, ls, ds, ss⟩ := r
  have h0 : resultOfIds (ss.map (fun l => 's' :: chars l)) = ⟨[], [], [], ss⟩ := by
    induction ss with
    | nil => rfl
    | cons l ss ih => simp [resultOfIds, ih, bytes_chars]
  have h1 : resultOfIds (ds.map (fun d => 'd' :: d) ++ ss.map (fun l => 's' :: chars l)) =
      ⟨[], [], ds, ss⟩ := by
    induction ds with
    | nil => exact h0
    | cons d ds ih => simp [resultOfIds, ih]
  have h2 : resultOfIds (ls.map (fun l => 'l' :: chars l) ++
      (ds.map (fun d => 'd' :: d) ++ ss.map (fun l => 's' :: chars l))) = ⟨[], ls, ds, ss⟩ := by
    induction ls with
    | nil => exact h1
    | cons l ls ih =>
      simp [resultOfIds, ih, bytes_chars]
  unfold idsOfResult
  simp only
  induction fs with
  | nil => exact h2
  | cons f fs ih =>
    obtain ⟨i, x⟩ := f
    cases x <;> simp [resultOfIds, ih]

def kindChar : Kind → Char
  | .blob false => 'F'
  | .blob true => 'X'
  | .tree => 'T'

def idsOfEntries (es : List (Id × Kind)) : List Id := es.map (fun e => kindChar e.2 :: e.1)

def entriesOfIds : List Id → List (Id × Kind)
  | [] => []
  | i :: is =>
    let es := entriesOfIds is
    match i with
    | c :: i =>
      if c = 'F' then (i, .blob false) :: es
      else if c = 'X' then (i, .blob true) :: es
      else (i, .tree) :: es
    | [] => es

theorem entries_ids (es : List (Id × Kind)) : entriesOfIds (idsOfEntries es) = es := by
  unfold idsOfEntries
  induction es with
  | nil => rfl
  | cons e es ih =>
    obtain ⟨i, k⟩ := e
    cases k with
    | tree => rw [List.map_cons]; simp only [entriesOfIds, ih]; simp [kindChar]
    | blob x =>
      rw [List.map_cons]; simp only [entriesOfIds, ih]; cases x <;> simp [kindChar]

def idsOfEntry (e : Entry) : List Id :=
  e.implied.map (fun i => 'i' :: i) ++
    (match e.artifacts with
    | none => [[]]
    | some as => ['s'] :: idsOfEntries as)

def entryOfIds : List Id → Entry
  | [] => ⟨[], none⟩
  | i :: is =>
    match i with
    | c :: i =>
      if c = 'i' then { entryOfIds is with implied := i :: (entryOfIds is).implied }
      else ⟨[], some (entriesOfIds is)⟩
    | [] => ⟨[], none⟩

theorem entry_ids (e : Entry) : entryOfIds (idsOfEntry e) = e := by
  obtain ⟨is, as⟩ := e
  unfold idsOfEntry
  simp only
  induction is with
  | nil =>
    cases as with
    | none => rfl
    | some as => simp [entryOfIds, entries_ids]
  | cons i is ih =>
    simp [entryOfIds, ih]

/-! ### The environment -/

def hashB (b : Bytes) : Id := 'b' :: chars b
def hashT (b : Bytes) : Id := 't' :: chars b

theorem chars_inj {b b' : Bytes} (h : chars b = chars b') : b = b' := by
  rw [← bytes_chars b, h, bytes_chars]

theorem hashB_inj {b b' : Bytes} (h : hashB b = hashB b') : b = b' := chars_inj (List.cons.inj h).2

/-- Names of blobs and trees are told apart by the first letter; entries are smaller than the
tree. -/
def wellFormed (b : Bytes) (e : Id × Kind) : Bool :=
  e.1.length ≤ b.length && (match e.1, e.2 with
    | 't' :: _, .tree => true
    | 'b' :: _, .blob _ => true
    | _, _ => false)

def parseT (b : Bytes) : Option (List (Id × Kind)) :=
  match (decIds b).map entriesOfIds with
  | none => none
  | some es => if es.all (wellFormed b) then some es else none

/-- Only one blob can be split. -/
def chunksOf (big : Bytes) (b : Bytes) : List Bytes :=
  if b = big then [b.take 1, b.drop 1] else [b]

/-- The environment with `n` generations where `big` is the only blob that can be split. -/
def env (n : Nat) (big : Bytes) : Env where
  numGen := n
  hashBlob := hashB
  hashTree := hashT
  parseTree := parseT
  parseParts := decIds
  dumpParts := encIds
  parseKey b := (decIds b).bind List.head?
  dumpKey d := encIds [d]
  parseInfo b := (decIds b).bind List.head?
  dumpInfo d := encIds [d]
  parseResult b := (decIds b).map resultOfIds
  dumpResult r := encIds (idsOfResult r)
  parseEntry b := (decIds b).map entryOfIds
  dumpEntry e := encIds (idsOfEntry e)
  chunks := chunksOf big
  validName := fun d => match d with
    | 'b' :: _ => true
    | 't' :: _ => true
    | _ => false

theorem parseT_some {b : Bytes} {es : List (Id × Kind)} (h : parseT b = some es) :
    ∀ e ∈ es, wellFormed b e = true := by
  unfold parseT at h
  split at h
  · cases h
  · next es' _ =>
    by_cases hall : es'.all (wellFormed b)
    · rw [if_pos hall] at h
      cases h
      exact List.all_eq_true.1 hall
    · rw [if_neg hall] at h
      cases h

theorem wellFormed_tree {b : Bytes} {i : Id} {k : Kind} (h : wellFormed b (i, k) = true) :
    (k = .tree ↔ i.head? = some 't') ∧ i.length ≤ b.length := by
  unfold wellFormed at h
  simp only [Bool.and_eq_true, decide_eq_true_eq] at h
  refine ⟨?_, h.1⟩
  replace h := h.2
  split at h <;> simp_all

theorem env_ok (n : Nat) (hn : 0 < n) (big : Bytes) (hb : 2 ≤ big.length) :
    (env n big).OK (fun _ => True) where
  injBlob b b' _ _ h := chars_inj (List.cons.inj h).2
  injTree b b' _ _ h := chars_inj (List.cons.inj h).2
  kinds b es _ hp i k k' h h' := by
    have h1 := (wellFormed_tree (parseT_some hp _ h)).1
    have h2 := (wellFormed_tree (parseT_some hp _ h')).1
    rw [h1, h2]
  chunks_flatten b := by
    show (chunksOf big b).flatten = b
    unfold chunksOf
    split
    · simp only [List.flatten_cons, List.flatten_nil, List.append_nil, List.take_append_drop]
    · simp
  chunks_chunk b c hc := by
    change c ∈ chunksOf big b at hc
    show chunksOf big c = [c]
    unfold chunksOf at hc ⊢
    split at hc
    · next h =>
      subst h
      rw [if_neg]
      intro h
      simp only [List.mem_cons, List.not_mem_nil, or_false] at hc
      rcases hc with rfl | rfl
      · have := congrArg List.length h
        simp at this
        omega
      · have := congrArg List.length h
        simp at this
        omega
    · next h =>
      simp only [List.mem_cons, List.not_mem_nil, or_false] at hc
      subst hc
      rw [if_neg h]
  chunks_mem _ _ _ _ := trivial
  parts_dump := dec_encIds
  key_dump d := by simp [env, dec_encIds]
  info_dump d := by simp [env, dec_encIds]
  result_dump r := by simp [env, dec_encIds, result_ids]
  entry_dump e := by simp [env, dec_encIds, entry_ids]
  gens := hn
  valid_blob _ := rfl
  valid_tree _ := rfl

def ranks (n : Nat) (big : Bytes) : Ranks (env n big) (fun _ => True) where
  tree := List.length
  target := List.length
  tree_lt b es i _ hp hm := by
    have := (wellFormed_tree (parseT_some hp _ hm)).2
    show i.length < (chars b).length + 1
    simp only [chars, List.length_map]
    omega

/-- The contents of bounded length. -/
def short (N : Nat) (b : Bytes) : Prop := b.length ≤ N

instance (N : Nat) (b : Bytes) : Decidable (short N b) :=
  inferInstanceAs (Decidable (b.length ≤ N))

theorem env_ok_short (n : Nat) (hn : 0 < n) (big : Bytes) (hb : 2 ≤ big.length) (N : Nat) :
    (env n big).OK (short N) :=
  { env_ok n hn big hb with
    injBlob := fun b b' _ _ => (env_ok n hn big hb).injBlob b b' trivial trivial
    injTree := fun b b' _ _ => (env_ok n hn big hb).injTree b b' trivial trivial
    kinds := fun b es _ => (env_ok n hn big hb).kinds b es trivial
    chunks_mem := fun b c h hc => by
      change c ∈ chunksOf big b at hc
      unfold short at h ⊢
      unfold chunksOf at hc
      split at hc
      · simp only [List.mem_cons, List.not_mem_nil, or_false] at hc
        rcases hc with rfl | rfl
        · rw [List.length_take]; omega
        · rw [List.length_drop]; omega
      · simp only [List.mem_cons, List.not_mem_nil, or_false] at hc
        subst hc
        exact h }

/-- Bounded ranks. -/
def ranksShort (n : Nat) (big : Bytes) (N : Nat) : Ranks (env n big) (short N) where
  tree i := min i.length (N + 1)
  target i := min i.length (N + 1)
  tree_lt b es i hU hp hm := by
    have := (wellFormed_tree (parseT_some hp _ hm)).2
    show min i.length (N + 1) < min ((chars b).length + 1) (N + 1)
    have hU' : b.length ≤ N := hU
    simp only [chars, List.length_map]
    omega

end Verif.Storage.Example
