import Verif.AddCas.Import
import Verif.Tree.InstallProps

/-!
# C109: what is added to the CAS
-/

namespace Verif.AddCas

open Verif Verif.Path
open Verif.Dig (ObjectType)
open Verif.Roots (Name)
open Verif.Symlinks (Good)
open Verif.Tree (Info Obs Env NoCollision look)

variable {W : World} {E : Env} {root : List Str} {es : List (Str × Node)} {n : Nat} {d d' : Disk} {i : Info}

theorem add_dir (hp : Proper W.fs) (hroot : W.fs.find root = some (.dir es)) (h : add W n false root d = .printed i d') :
    ∃ id k, i = ⟨.tree, id⟩ ∧ importDir W root n [] [] d [] = .ok id d' k := by
  unfold add addAt at h
  rw [if_neg (by decide), lstat_find hp hroot] at h
  dsimp only at h
  split at h
  · cases h
  · cases hi : importDir W root n [] [] d [] with
    | fail => rw [hi] at h; cases h
    | more => rw [hi] at h; cases h
    | ok id d1 k =>
      rw [hi] at h
      injection h with e1 e2
      subst e1 e2
      exact ⟨id, k, rfl, rfl⟩

theorem add_ok (hE : E.H = W.T) (hH : ∀ s, (W.H s).length = 20) (hT : ∀ s, (W.T s).length = 20) (hp : Proper W.fs)
    (hroot : W.fs.find root = some (.dir es)) (hl : PlainFor W root) {P : List Str → Prop}
    (hP : ∀ r, W.mode = some .all ∨ root <+: r → P r) (h : add W n false root d = .printed i d') :
    i.type = .tree ∧ Mono W d d' ∧ OK W E d' i root (Shows W d.inode P root) := by
  obtain ⟨id, k, rfl, hi⟩ := add_dir hp hroot h
  have := importDir_spec (I := d.inode) (P := P) hE hH hT hp hroot hl hP n [] [] d [] id d' k es hi hroot
    (.good fun a ha => (nomatch ha)) ⟨fun x hx => (nomatch hx), fun _ => rfl, fun _ => rfl⟩
  exact ⟨rfl, this.2.1, this.2.2⟩

/-- The tree printed shows what is in the directory, with links treated as the option says. Only for directories where links lead to
their target without passing other links. -/
theorem C109_tree_partial (hE : E.H = W.T) (hH : ∀ s, (W.H s).length = 20) (hT : ∀ s, (W.T s).length = 20) (hp : Proper W.fs)
    (hroot : W.fs.find root = some (.dir es)) (hl : PlainFor W root) (h : add W n false root d = .printed i d') :
    i.type = .tree ∧ ∀ S, NoCollision E S → (∀ c ∈ d'.trees, c ∈ S) →
      ∀ q o, look E S i q = some o ↔ Shows W d.inode (fun _ => True) root q o :=
  have := add_ok hE hH hT hp hroot hl (P := fun _ => True) (fun _ _ => trivial) h
  ⟨this.1, this.2.2.shows⟩

/-- Unless this is asked for, nothing from outside the directory gets in. Only for directories where links lead to their target without
passing other links. -/
theorem C109_confined_partial (hE : E.H = W.T) (hH : ∀ s, (W.H s).length = 20) (hT : ∀ s, (W.T s).length = 20) (hp : Proper W.fs)
    (hroot : W.fs.find root = some (.dir es)) (hl : PlainFor W root) (hm : W.mode ≠ some .all)
    (h : add W n false root d = .printed i d') :
    ∀ S, NoCollision E S → (∀ c ∈ d'.trees, c ∈ S) →
      ∀ q o, look E S i q = some o ↔ Shows W d.inode (fun r => root <+: r) root q o :=
  (add_ok hE hH hT hp hroot hl (P := fun r => root <+: r) (fun _ hr => hr.elim (fun e => absurd e hm) id) h).2.2.shows

/-- Everything in the directory is in the tree, unless it is to be ignored. Only for directories where links lead to their target
without passing other links. -/
theorem C109_all_partial (hE : E.H = W.T) (hH : ∀ s, (W.H s).length = 20) (hT : ∀ s, (W.T s).length = 20) (hp : Proper W.fs)
    (hroot : W.fs.find root = some (.dir es)) (hl : PlainFor W root) (hm : W.mode ≠ some .ignore)
    (h : add W n false root d = .printed i d') {q : List Str} {m : Node} (hq : W.fs.find (root ++ q) = some m) :
    ∀ S, NoCollision E S → (∀ c ∈ d'.trees, c ∈ S) → ∃ o, look E S i q = some o := by
  intro S hS hc
  have := (add_ok hE hH hT hp hroot hl (P := fun _ => True) (fun _ _ => trivial) h).2.2
  obtain ⟨o, ho⟩ := this.all hm q (by rw [hq]; rfl)
  exact ⟨o, (this.shows S hS hc q o).2 ho⟩

/-- What the tree refers to is in the CAS, with the right content. Only for directories where links lead to their target without passing
other links. -/
theorem C109_stored_partial (hE : E.H = W.T) (hH : ∀ s, (W.H s).length = 20) (hT : ∀ s, (W.T s).length = 20) (hp : Proper W.fs)
    (hroot : W.fs.find root = some (.dir es)) (hl : PlainFor W root) (hs : ∀ x id c, d.blob x id = some c → W.H c = id)
    (h : add W n false root d = .printed i d') :
    ∀ S, NoCollision E S → (∀ c ∈ d'.trees, c ∈ S) → ∀ q ty id, look E S i q = some (.leaf ty id) →
      ∃ c, d'.blob (ty == .executable) id = some c ∧ W.H c = id := by
  intro S hS hc q ty id hl'
  obtain ⟨_, h2, h3⟩ := add_ok hE hH hT hp hroot hl (P := fun _ => True) (fun _ _ => trivial) h
  obtain ⟨x, h0, h4, h5⟩ := h3.avail q _ ((h3.shows S hS hc q _).1 hl')
  have hx : (ty == .executable) = x := by
    cases x with
    | true => rw [h4.1 rfl]; rfl
    | false =>
      cases ty <;> first | rfl | exact absurd (h4.2 rfl) (by decide)
  rw [hx]
  obtain ⟨s, hs'⟩ := Option.isSome_iff_exists.1 h5
  have : ∃ c, d'.blob x id = some c := by
    unfold Disk.blob
    rw [hs']
    exact ⟨_, rfl⟩
  obtain ⟨c, hc'⟩ := this
  exact ⟨c, hc', h2.sound hs x id c hc'⟩

/-- What there is to see of a node, if links are kept. -/
def seen (W : World) (inode : Nat → Inode) : Node → Option Obs
  | .file i => some (.leaf (if (inode i).exec then .executable else .file) (W.H (inode i).content))
  | .link t => if W.mode = none then some (.leaf .symlink (W.H t)) else none
  | .dir _ => some .dir
  | .special => none

theorem shows_seen {I : Nat → Inode} {P : List Str → Prop} (hm : W.mode = none ∨ W.mode = some .ignore)
    (hn : W.mode = none → ∀ q t, W.fs.find (root ++ q) = some (.link t) → NonUpwards t)
    {q : List Str} {o : Obs} (he : W.fs.find root = some (.dir es)) :
    Shows W I P root q o ↔ (W.fs.find (root ++ q)).bind (seen W I) = some o := by
  have notf : ∀ t, ¬ Followed W.mode t := by
    intro t hf
    rcases hm with e | e <;> rw [e] at hf <;> rcases hf with h | h | ⟨h, _⟩ <;> cases h
  induction q generalizing root es with
  | nil =>
    rw [List.append_nil, he]
    constructor
    · intro h
      cases h
      rfl
    · intro h
      cases h
      exact .here he
  | cons a q ih =>
    have e : root ++ a :: q = root ++ [a] ++ q := by simp
    cases ha : W.fs.find (root ++ [a]) with
    | none =>
      rw [e, find_append, ha]
      exact ⟨fun h => absurd h (shows_none ha q o), fun h => (nomatch h)⟩
    | some m =>
      cases m with
      | dir es' =>
        have hn' : W.mode = none → ∀ q t, W.fs.find (root ++ [a] ++ q) = some (.link t) → NonUpwards t :=
          fun h0 q' t ht => hn h0 (a :: q') t (by rw [← ht]; simp)
        rw [shows_dir ha, e]
        exact ih hn' ha
      | file j =>
        rw [shows_file ha, e, find_append, ha]
        cases q with
        | nil =>
          constructor
          · rintro ⟨_, rfl⟩
            rfl
          · intro h
            refine ⟨rfl, ?_⟩
            injection h with h
            exact h.symm
        | cons b q => exact ⟨fun h => (nomatch h.1), fun h => (nomatch h)⟩
      | special =>
        refine ⟨fun h => absurd h (shows_special ha q o), fun h => ?_⟩
        rw [e, find_append, ha] at h
        cases q with
        | nil => cases h
        | cons => cases h
      | link t =>
        by_cases h0 : W.mode = none
        · rw [shows_keep ha ⟨Or.inl h0, hn h0 [a] t ha⟩, e, find_append, ha]
          cases q with
          | nil =>
            have : (Option.bind (some (Node.link t)) fun m => m.find []).bind (seen W I) = some (.leaf .symlink (W.H t)) := by
              change seen W I (.link t) = _
              rw [seen, if_pos h0]
            rw [this]
            exact ⟨fun h => by rw [h.2], fun h => ⟨rfl, (Option.some.inj h).symm⟩⟩
          | cons b q => exact ⟨fun h => (nomatch h.1), fun h => (nomatch h)⟩
        · constructor
          · intro h
            cases h with
            | file h' => rw [ha] at h'; cases h'
            | down h' => rw [ha] at h'; cases h'
            | keep h' hk =>
              rcases hm with e | e
              · exact absurd e h0
              · rcases hk.1 with h | h <;> rw [e] at h <;> cases h
            | linkFile h' hf => exact absurd hf (notf _)
            | linkDir h' hf => exact absurd hf (notf _)
          · intro h
            rw [e, find_append, ha] at h
            cases q with
            | nil =>
              change seen W I (.link t) = _ at h
              rw [seen, if_neg h0] at h
              cases h
            | cons => cases h

/-- By default, directories with links leading upwards, or with special files, are not accepted. -/
theorem C109_rejects (hH : ∀ s, (W.H s).length = 20) (hT : ∀ s, (W.T s).length = 20) (hp : Proper W.fs)
    (hroot : W.fs.find root = some (.dir es)) (hm : W.mode = none) (h : add W n false root d = .printed i d') {q : List Str} {m : Node}
    (hq : W.fs.find (root ++ q) = some m) :
    m ≠ .special ∧ ∀ t, m = .link t → t.head? ≠ some '/' ∧ NeverAbove (splitAt '/' t) := by
  have hok := (add_ok (E := ⟨W.T, id⟩) rfl hH hT hp hroot (Or.inl hm) (P := fun _ => True) (fun _ _ => trivial) h).2.2.all
    (by rw [hm]; exact (nomatch ·)) q (by rw [hq]; rfl)
  obtain ⟨o, ho⟩ := hok
  clear h
  induction q generalizing root es with
  | nil =>
    rw [List.append_nil, hroot] at hq
    cases hq
    exact ⟨nofun, nofun⟩
  | cons a q ih =>
    have e : root ++ a :: q = root ++ [a] ++ q := by simp
    have hmm : W.mode = none → ∀ t, ¬ Followed W.mode t := by
      intro h t hf
      rw [h] at hf
      rcases hf with h | h | ⟨h, _⟩ <;> cases h
    cases ho with
    | file h' =>
      rw [hq] at h'
      cases h'
      exact ⟨nofun, nofun⟩
    | down h' hs => exact ih h' (e ▸ hq) hs
    | keep h' hk =>
      rw [hq] at h'
      cases h'
      refine ⟨nofun, fun t' e' => ?_⟩
      cases e'
      exact hk.2
    | linkFile h' hf => exact absurd hf (hmm hm _)
    | linkDir h' hf => exact absurd hf (hmm hm _)

/-- By default, the tree printed shows exactly what is in the directory, and with special entries ignored it shows exactly the files and
directories. -/
theorem C109_same (hE : E.H = W.T) (hH : ∀ s, (W.H s).length = 20) (hT : ∀ s, (W.T s).length = 20) (hp : Proper W.fs)
    (hroot : W.fs.find root = some (.dir es)) (hm : W.mode = none ∨ W.mode = some .ignore)
    (h : add W n false root d = .printed i d') :
    i.type = .tree ∧ ∀ S, NoCollision E S → (∀ c ∈ d'.trees, c ∈ S) →
      ∀ q, look E S i q = (W.fs.find (root ++ q)).bind (seen W d.inode) := by
  have hl : PlainFor W root := hm.elim Or.inl fun e => Or.inr (Or.inl e)
  obtain ⟨h1, _, h3⟩ := add_ok hE hH hT hp hroot hl (P := fun _ => True) (fun _ _ => trivial) h
  refine ⟨h1, fun S hS hc q => Option.ext fun o => ?_⟩
  rw [h3.shows S hS hc q o]
  exact shows_seen hm (fun h0 q t ht => (C109_rejects hH hT hp hroot h0 h ht).2 t rfl) hroot

/-- A single file or link is stored with the right content, and the file itself is left as it is. -/
theorem C109_single (hp : Proper W.fs) {p : List Str} {m : Node} (hm : W.fs.find p = some m) (hd : ∀ es, m ≠ .dir es)
    (hs : ∀ x id c, d.blob x id = some c → W.H c = id) (h : add W n false p d = .printed i d') :
    d'.inode = d.inode ∧ some (.leaf i.type i.id) = seen { W with mode := none } d.inode m ∧
      ∃ c, d'.blob (i.type == .executable) i.id = some c ∧ W.H c = i.id := by
  unfold add addAt at h
  rw [if_neg (by decide), lstat_find hp hm] at h
  have fin : ∀ x c, (storeCopy W x c d).2.inode = d.inode ∧
      ∃ c', (storeCopy W x c d).2.blob x (storeCopy W x c d).1 = some c' ∧ W.H c' = (storeCopy W x c d).1 := by
    intro x c
    obtain ⟨h1, h2, h3⟩ := storeCopy_spec (W := W) x c d
    refine ⟨?_, ?_⟩
    · unfold storeCopy
      split <;> rfl
    · obtain ⟨s, hs'⟩ := Option.isSome_iff_exists.1 h3
      have : ∃ c', (storeCopy W x c d).2.blob x (W.H c) = some c' := by
        unfold Disk.blob
        rw [hs']
        exact ⟨_, rfl⟩
      obtain ⟨c', hc'⟩ := this
      rw [h2]
      exact ⟨c', hc', h1.sound hs x _ c' hc'⟩
  cases m with
  | special => cases h
  | dir es => exact absurd rfl (hd es)
  | file j =>
    injection h with e1 e2
    subst e1 e2
    obtain ⟨f1, f2⟩ := fin (d.inode j).exec (d.inode j).content
    refine ⟨f1, ?_, ?_⟩
    · rw [(storeCopy_spec (W := W) _ _ d).2.1]
      rfl
    · have : (typeOf (d.inode j).exec == .executable) = (d.inode j).exec := by
        cases (d.inode j).exec <;> rfl
      dsimp only
      rw [this]
      exact f2
  | link t =>
    injection h with e1 e2
    subst e1 e2
    obtain ⟨f1, f2⟩ := fin false t
    refine ⟨f1, ?_, f2⟩
    rw [(storeCopy_spec (W := W) _ _ d).2.1]
    rfl

/-! ## Acceptance -/

theorem storeOwned_ok {W : World} (hmine : ∀ j, W.mine j = true) (hdev : ∀ j, W.sameDevice j = true) (j : Nat) (x : Bool) (d : Disk) :
    ∃ id d', storeOwned W j x d = (some id, d') := by
  unfold storeOwned
  split
  · exact ⟨_, _, rfl⟩
  · rw [hmine, if_neg (by decide), hdev, if_neg (by decide)]
    exact ⟨_, _, rfl⟩

/-- What is accepted without following links. -/
def Fine (m : Option Mode) (nd : Node) : Prop :=
  m = some .ignore ∨ m = none ∧ nd ≠ .special ∧ ∀ t, nd = .link t → NonUpwards t

theorem importDir_ok {W : World} {root : List Str} (hp : Proper W.fs) (hmine : ∀ j, W.mine j = true) (hdev : ∀ j, W.sameDevice j = true) {nd : Node}
    (hnd : Proper nd) : (∀ q m, nd.find q = some m → Fine W.mode m) → ∃ N, ∀ n, N ≤ n → ∀ (rel : Key) (linked : List Key) (d : Disk) (k : Known),
      (∃ es, nd = .dir es) → W.fs.find (full root rel) = some nd → (∀ x ∈ linked, x.length < rel.length) →
      ∃ id d' k', importDir W root n linked rel d k = .ok id d' k' := by
  induction hnd with
  | file => exact fun _ => ⟨0, fun n _ rel linked d k h => (nomatch h)⟩
  | link => exact fun _ => ⟨0, fun n _ rel linked d k h => (nomatch h)⟩
  | special => exact fun _ => ⟨0, fun n _ rel linked d k h => (nomatch h)⟩
  | @dir es h1 h2 h3 ih =>
    intro hfine
    obtain ⟨N, hN⟩ := Install.bound_all (Q := fun (e : Str × Node) n => ∀ (rel : Key) (linked : List Key) (d : Disk) (k : Known),
      (∃ es, e.2 = .dir es) → W.fs.find (full root rel) = some e.2 → (∀ x ∈ linked, x.length < rel.length) →
      ∃ id d' k', importDir W root n linked rel d k = .ok id d' k') es fun e he => ih e he fun q m hq =>
        hfine (e.1 :: q) m (by rw [find_cons, mem_assoc h2 he]; exact hq)
    refine ⟨N + 1, fun n hn rel linked d k _ hf hlk => ?_⟩
    obtain ⟨n, rfl⟩ : ∃ n', n = n' + 1 := ⟨n - 1, by omega⟩
    rw [importDir, lstat_find hp hf]
    dsimp only
    rw [if_neg fun hm => absurd (hlk rel hm) (Nat.lt_irrefl _)]
    have go : ∀ (l : List (Str × Node)), (∀ e ∈ l, e ∈ es) → ∀ g d k,
        ∃ g' d' k', importGo W.mode (item W root n (importDir W root n (rel :: linked))) rel l g d k = .ok g' d' k' := by
      intro l
      induction l with
      | nil => exact fun _ g d k => ⟨g, d, k, rfl⟩
      | cons e l ihl =>
        obtain ⟨name, node⟩ := e
        intro hl g d k
        have he := hl (name, node) (by simp)
        have hfi : Fine W.mode node := hfine [name] node (by rw [find_cons, mem_assoc h2 he]; cases node <;> rfl)
        rw [importGo]
        by_cases hsk : skipped W.mode node = true
        · rw [if_pos hsk]
          exact ihl (fun e he => hl e (by simp [he])) g d k
        · rw [if_neg hsk]
          have hitem : ∃ i d' k', item W root n (importDir W root n (rel :: linked)) (rel ++ [name]) node d k = .ok i d' k' := by
            unfold item
            cases assoc (rel ++ [name]) k with
            | some i => exact ⟨_, _, _, rfl⟩
            | none =>
              dsimp only
              cases node with
              | special =>
                rcases hfi with e | ⟨_, e, _⟩
                · rw [e] at hsk
                  exact absurd rfl hsk
                · exact absurd rfl e
              | link t =>
                rcases hfi with e | ⟨e, _, e2⟩
                · rw [e] at hsk
                  exact absurd rfl hsk
                · have ht : t ≠ [] := by
                    cases h3 _ he with
                    | link h => exact h
                  dsimp only
                  rw [if_pos ((keeps_iff ht).2 ⟨Or.inl e, e2 t rfl⟩)]
                  exact ⟨_, _, _, rfl⟩
              | file j =>
                dsimp only
                rw [treat]
                obtain ⟨id, d', hst⟩ := storeOwned_ok hmine hdev j (d.inode j).exec d
                rw [hst]
                exact ⟨_, _, _, rfl⟩
              | dir es' =>
                dsimp only
                rw [treat]
                have hname := h1 _ he
                obtain ⟨id, d', k', hi⟩ := hN n (by omega) (name, .dir es') he (rel ++ [name]) (rel :: linked) d k ⟨es', rfl⟩
                  (by rw [full_snoc _ _ hname, find_snoc hf, mem_assoc h2 he]) (fun x hx => by
                    rw [List.length_append, List.length_singleton]
                    rcases List.mem_cons.1 hx with rfl | hx
                    · omega
                    · have := hlk x hx
                      omega)
                rw [hi]
                exact ⟨_, _, _, rfl⟩
          obtain ⟨i, d1, k1, hi⟩ := hitem
          rw [hi]
          exact ihl (fun e he => hl e (by simp [he])) _ _ _
    obtain ⟨g', d', k', hgo⟩ := go es (fun _ h => h) [] d k
    rw [hgo]
    exact ⟨_, _, _, rfl⟩

/-- By default, a directory without special files and links leading upwards is accepted, and every directory is if special entries are
ignored. Only if the files may be changed, and are on the file system of the CAS. -/
theorem C109_accepts_partial (hp : Proper W.fs) (hroot : W.fs.find root = some (.dir es)) (hnat : W.native = true)
    (hmine : ∀ j, W.mine j = true) (hdev : ∀ j, W.sameDevice j = true)
    (hm : W.mode = some .ignore ∨ W.mode = none ∧ ∀ q m, W.fs.find (root ++ q) = some m →
      m ≠ .special ∧ ∀ t, m = .link t → t.head? ≠ some '/' ∧ NeverAbove (splitAt '/' t)) :
    ∃ N, ∀ n, N ≤ n → ∀ d, ∃ i d', add W n false root d = .printed i d' := by
  obtain ⟨N, hN⟩ := importDir_ok (root := root) hp hmine hdev (hp.find hroot).1 fun q m hq => by
    rcases hm with e | ⟨e, h⟩
    · exact Or.inl e
    · exact Or.inr ⟨e, h q m (by rw [find_append, hroot]; exact hq)⟩
  refine ⟨N, fun n hn d => ?_⟩
  obtain ⟨id, d', k', hi⟩ := hN n hn [] [] d [] ⟨es, rfl⟩ hroot (fun x hx => (nomatch hx))
  refine ⟨⟨.tree, id⟩, d', ?_⟩
  unfold add addAt
  rw [if_neg (by decide), lstat_find hp hroot]
  dsimp only
  rw [hnat, if_neg (by decide), hi]

end Verif.AddCas
