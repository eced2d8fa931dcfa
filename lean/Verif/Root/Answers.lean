import Verif.Root.Git

/-!
# Source roots: what is found, and what roots in the file system answer
-/

namespace Verif.Root

open Verif.Path

/-! ## Looking up in valid trees -/

theorem pureGo_valid (l : List Str) {p : List Str} {es : Entries} (hv : Valid (.dir es)) (hl : l ≠ []) :
    pureGo (readTree false) p es l = some (((Node.dir es).find l).map fun n => (p ++ l, n)) := by
  induction l generalizing p es with
  | nil => exact absurd rfl hl
  | cons x rest ih =>
    rw [find_cons]
    cases rest with
    | nil =>
      unfold pureGo
      cases entryIn es x with
      | none => rfl
      | some n => simp [find_nil]
    | cons y rest =>
      unfold pureGo
      cases hx : entryIn es x with
      | none => rfl
      | some n =>
        cases n with
        | dir es' =>
          have hv' : Valid (.dir es') := by
            cases hv with
            | dir h => exact h _ (mem_of_entryIn hx)
          simp only [readTree_valid hv', Option.bind_some]
          rw [ih hv' (by simp)]
          simp
        | _ => rfl

theorem pureLook_valid {G : GitRoot} (hi : G.ign = false) (hv : Valid (.dir G.content)) {s : Str} {l : List Str}
    (hp : place s = ⟨false, 0, l⟩) (hl : l ≠ []) :
    pureLook (readTree false) G s = some (((Node.dir G.content).find l).map fun n => (l, n)) := by
  have ht : G.tree = G.content := by
    unfold GitRoot.tree
    rw [hi, readDirect_valid hv]
    rfl
  unfold pureLook
  rw [resolvePath_place hp hl, ht, pureGo_valid l hv hl]
  simp

/-! ## Looking up ignoring special entries -/

theorem entryIn_stripped (es : Entries) (x : Str) :
    entryIn (stripped es) x = (entryIn (es.filter fun e => !e.2.special) x).map Node.strip := by
  rw [stripped_eq, entryIn_map]

theorem pureGo_drop (l : List Str) (p : List Str) (es : Entries) (hl : l ≠ []) :
    ∃ r, pureGo drop p (es.filter fun e => !e.2.special) l = some r ∧
      (r.map fun e => e.2.strip) = (Node.dir (stripped es)).find l ∧
      ∀ e, r = some e → e.1 = p ++ l ∧ e.2.special = false := by
  induction l generalizing p es with
  | nil => exact absurd rfl hl
  | cons x rest ih =>
    rw [find_cons, entryIn_stripped]
    cases rest with
    | nil =>
      unfold pureGo
      refine ⟨_, rfl, ?_, ?_⟩
      · cases entryIn (es.filter fun e => !e.2.special) x with
        | none => rfl
        | some n => simp [find_nil]
      · intro e he
        cases hx : entryIn (es.filter fun e => !e.2.special) x with
        | none =>
          rw [hx] at he
          cases he
        | some n =>
          rw [hx] at he
          cases he
          have := List.mem_filter.1 (mem_of_entryIn hx)
          exact ⟨rfl, by simpa using this.2⟩
    | cons y rest =>
      unfold pureGo
      cases hx : entryIn (es.filter fun e => !e.2.special) x with
      | none => exact ⟨none, rfl, rfl, fun _ h => nomatch h⟩
      | some n =>
        cases n with
        | dir es' =>
          obtain ⟨r, h1, h2, h3⟩ := ih (p ++ [x]) es' (by simp)
          refine ⟨r, h1, ?_, ?_⟩
          · rw [h2]
            rfl
          · intro e he
            have := h3 e he
            exact ⟨by rw [this.1]; simp, this.2⟩
        | _ => exact ⟨none, rfl, rfl, fun _ h => nomatch h⟩

theorem pureLook_drop {G : GitRoot} (hi : G.ign = true) {s : Str} {l : List Str} (hp : place s = ⟨false, 0, l⟩) (hl : l ≠ []) :
    ∃ r, pureLook drop G s = some r ∧ (r.map fun e => e.2.strip) = (shown true G.content).find l ∧
      ∀ e, r = some e → e.1 = l ∧ e.2.special = false := by
  have ht : G.tree = G.content.filter fun e => !e.2.special := by
    unfold GitRoot.tree
    rw [hi]
    rfl
  unfold pureLook
  rw [resolvePath_place hp hl, ht]
  obtain ⟨r, h1, h2, h3⟩ := pureGo_drop l [] G.content hl
  exact ⟨r, h1, h2, by simpa using h3⟩

/-! ## Paths in the file system -/

theorem walkGo_find {root : Node} {follow : List Str → List Str → Option Node} (l : List Str) {cur : List Str} (hn : Names l)
    (hc : ∀ m k c, l = m ++ k → m ≠ [] → k ≠ [] → root.find (cur ++ m) ≠ some (.link c)) :
    walkGo (fun p => root.find p) follow cur l = root.find (cur ++ l) := by
  induction l generalizing cur with
  | nil => simp [walkGo]
  | cons x rest ih =>
    have hx := hn x (by simp)
    have hrest : Names rest := fun a ha => hn a (List.mem_cons_of_mem _ ha)
    unfold walkGo
    rw [if_neg (by rintro (h | h); exacts [hx.2.1 h, hx.2.2.1 h]), if_neg hx.2.2.2]
    have hsplit : root.find (cur ++ x :: rest) = (root.find (cur ++ [x])).bind fun m => m.find rest := by
      rw [← find_append]
      simp
    rw [hsplit]
    cases hf : root.find (cur ++ [x]) with
    | none => rfl
    | some n =>
      have hleaf : (∀ es, n ≠ .dir es) → (if rest = [] then some n else none) = n.find rest := by
        intro h
        cases rest with
        | nil => rw [if_pos rfl, find_nil]
        | cons y t => rw [if_neg (by simp), find_leaf h]
      cases n with
      | dir es =>
        simp only [Option.bind_some]
        rw [ih hrest, ← List.append_cons, hsplit, hf]
        · rfl
        · intro m k c e hm hk
          have := hc (x :: m) k c (by rw [e]; rfl) (by simp) hk
          rwa [← List.append_cons]
      | link c =>
        simp only [Option.bind_some]
        by_cases hr : rest = []
        · rw [if_pos hr, hr, find_nil]
        · exact absurd hf (hc [x] rest c rfl (by simp) hr)
      | file c b => exact hleaf (by simp)
      | other => exact hleaf (by simp)

theorem walkGo_dirs {root : Node} {follow : List Str → List Str → Option Node} (l : List Str) {cur r : List Str} {es : Entries}
    (hn : Names l) (hd : root.find (cur ++ l) = some (.dir es)) :
    walkGo (fun p => root.find p) follow cur (l ++ r) = walkGo (fun p => root.find p) follow (cur ++ l) r := by
  induction l generalizing cur with
  | nil => simp
  | cons x rest ih =>
    have hx := hn x (by simp)
    have hsplit : root.find (cur ++ x :: rest) = (root.find (cur ++ [x])).bind fun m => m.find rest := by
      rw [← find_append]
      simp
    rw [hsplit] at hd
    rw [List.cons_append, walkGo.eq_def]
    simp only
    rw [if_neg (by rintro (h | h); exacts [hx.2.1 h, hx.2.2.1 h]), if_neg hx.2.2.2]
    cases hf : root.find (cur ++ [x]) with
    | none =>
      rw [hf] at hd
      cases hd
    | some n =>
      cases n with
      | dir es' =>
        simp only
        rw [ih (fun a ha => hn a (List.mem_cons_of_mem _ ha)), ← List.append_cons]
        rw [← List.append_cons, hsplit, hf]
        rwa [hf] at hd
      | _ =>
        rw [hf] at hd
        cases rest with
        | nil =>
          rw [Option.bind_some, find_nil] at hd
          cases hd
        | cons y t => cases hd

theorem lstat_find {root : Entries} {k : Nat} {l : List Str} (hn : Names l) (hc : NoLinkOn (.dir root) l) :
    lstat root k [] l = (Node.dir root).find l := by
  cases k <;>
  · unfold lstat
    rw [walkGo_find l hn]
    · rfl
    · intro m k c e _ hk
      exact hc m k c e hk

/-- The path for a list of names. -/
def pathOf (l : List Str) : Str := if l = [] then dot else joinWith '/' l

theorem at_path {F : FileRoot} {l : List Str} (hn : Names l) (hc : NoLinkOn (.dir F.content) l) :
    F.at (pathOf l) = (Node.dir F.content).find l := by
  unfold FileRoot.at pathOf
  by_cases hl : l = []
  · subst hl
    rfl
  · rw [if_neg hl, isAbs_join hn.seg, Symlinks.splitAt_join hl (fun a ha => hn a ha)]
    exact lstat_find hn hc

theorem dirAt_path {F : FileRoot} {l : List Str} {es : Entries} (hn : Names l)
    (hd : (Node.dir F.content).find l = some (.dir es)) : F.dirAt (pathOf l) = some es := by
  unfold FileRoot.dirAt pathOf
  by_cases hl : l = []
  · subst hl
    rw [find_nil] at hd
    cases hd
    rfl
  · rw [if_neg hl, isAbs_join hn.seg, Symlinks.splitAt_join hl (fun a ha => hn a ha)]
    simp only [Bool.false_eq_true, if_false]
    have : lstat F.content 40 [] (l ++ [dot]) = some (.dir es) := by
      unfold lstat
      rw [walkGo_dirs l hn (by simpa using hd)]
      unfold walkGo
      rw [if_pos (Or.inr rfl)]
      simpa [walkGo] using hd
    rw [this]

theorem noLink_of_find {n m : Node} {l : List Str} (h : n.find l = some m) : NoLinkOn n l := by
  intro a k c e hk hf
  rw [e, find_append, hf] at h
  cases k with
  | nil => exact hk rfl
  | cons x t => cases h

theorem noLink_left {n : Node} {l m : List Str} (h : NoLinkOn n (l ++ m)) : NoLinkOn n l :=
  fun a k c e hk => h a (k ++ m) c (by rw [e, List.append_assoc]) (by simp [hk])

theorem readEntries_true (es : Entries) : readEntries true es = some (some (kinds (es.filter fun e => !e.2.special))) := by
  induction es with
  | nil => rfl
  | cons e t ih =>
    obtain ⟨x, n⟩ := e
    unfold readEntries
    by_cases h : n.special = true
    · simp [h, ih]
    · simp [h, ih, kinds]

theorem readEntries_valid {es : Entries} (hv : Valid (.dir es)) : readEntries false es = some (some (kinds es)) := by
  have hv' : ∀ e ∈ es, Valid e.2 := by
    cases hv with
    | dir h => exact h
  clear hv
  induction es with
  | nil => rfl
  | cons e t ih =>
    obtain ⟨x, n⟩ := e
    have ht := ih fun e he => hv' e (List.mem_cons_of_mem _ he)
    have hn := hv' (x, n) (by simp)
    unfold readEntries
    cases n with
    | link c =>
      cases hn with
      | link hc =>
        simp [Node.special, nonUpwards_inside.2 hc, ht, kinds]
    | other => cases hn
    | _ => simp [Node.special, ht, kinds]

/-! ## Trees, stripped and not -/

theorem entryIn_filter {es : Entries} (hd : (es.map Prod.fst).Nodup) (q : Node → Bool) (x : Str) :
    entryIn (es.filter fun e => q e.2) x = (entryIn es x).bind fun n => if q n then some n else none := by
  induction es with
  | nil => rfl
  | cons e t ih =>
    obtain ⟨y, n⟩ := e
    rw [List.map_cons, List.nodup_cons] at hd
    by_cases hq : q n = true
    · rw [List.filter_cons_of_pos (by exact hq)]
      unfold entryIn
      by_cases hy : y = x
      · simp [hy, hq]
      · simp [hy, ih hd.2]
    · rw [List.filter_cons_of_neg (by exact hq), ih hd.2]
      by_cases hy : y = x
      · have hnone : entryIn t x = none := by
          cases hx : entryIn t x with
          | none => rfl
          | some m =>
            have := mem_of_entryIn hx
            rw [← hy] at this
            exact absurd (List.mem_map.2 ⟨_, this, rfl⟩) hd.1
        rw [hnone]
        simp [entryIn, hy, hq]
      · simp [entryIn, hy]

theorem find_strip {n : Node} (hn : Named n) (l : List Str) :
    n.strip.find l = (n.find l).bind fun m => if l ≠ [] ∧ m.special = true then none else some m.strip := by
  induction l generalizing n with
  | nil => simp [find_nil]
  | cons x rest ih =>
    cases n with
    | dir es =>
      have he : (Node.dir es).strip = .dir (stripped es) := rfl
      rw [he, find_cons, find_cons, entryIn_stripped]
      cases hn with
      | dir h1 h2 h3 =>
        rw [entryIn_filter h2 (fun n => !n.special)]
        cases hx : entryIn es x with
        | none => rfl
        | some m =>
          have hm := h3 _ (mem_of_entryIn hx)
          simp only [Option.bind_some]
          cases hs : m.special with
          | false =>
            simp only [Bool.not_false, if_true, Option.map_some, Option.bind_some]
            rw [ih hm]
            cases rest with
            | nil => simp [find_nil, hs]
            | cons y t => simp
          | true =>
            have hl : ∀ es, m ≠ .dir es := by
              rintro es rfl
              cases hs
            cases rest with
            | nil => simp [find_nil, hs]
            | cons y t => simp [find_leaf hl]
    | _ => rfl

theorem shown_find {content : Entries} (hn : Named (.dir content)) (ign : Bool) (l : List Str) :
    (shown ign content).find l = ((Node.dir content).find l).bind fun m =>
      if ign then if l ≠ [] ∧ m.special = true then none else some m.strip else some m := by
  cases ign with
  | true =>
    unfold shown
    rw [if_pos rfl, find_strip hn]
    simp
  | false => simp [shown]

/-- What is seen of a directory. -/
def seen (ign : Bool) (es : Entries) : Entries := if ign then stripped es else es

theorem shown_dir {content : Entries} (hn : Named (.dir content)) (ign : Bool) {l : List Str} {es : Entries}
    (h : (Node.dir content).find l = some (.dir es)) : (shown ign content).find l = some (.dir (seen ign es)) := by
  rw [shown_find hn, h]
  cases ign with
  | true =>
    simp only [Option.bind_some, if_true]
    rw [if_neg (by simp [Node.special])]
    rfl
  | false => rfl

theorem shown_dir_conv {content : Entries} (hn : Named (.dir content)) (ign : Bool) {l : List Str} {es : Entries}
    (h : (shown ign content).find l = some (.dir es)) :
    ∃ es', (Node.dir content).find l = some (.dir es') ∧ es = seen ign es' := by
  rw [shown_find hn] at h
  cases hf : (Node.dir content).find l with
  | none =>
    rw [hf] at h
    cases h
  | some m =>
    rw [hf] at h
    cases ign with
    | true =>
      simp only [Option.bind_some, if_true] at h
      split at h
      · cases h
      · cases m with
        | dir es' =>
          cases h
          exact ⟨es', rfl, rfl⟩
        | _ => cases h
    | false =>
      cases h
      exact ⟨es, rfl, rfl⟩

/-! ## What roots in the file system answer -/

theorem join_path (l : List Str) : (if joinWith '/' l = [] then dot else joinWith '/' l) = pathOf l ∨ ¬ Names l := by
  by_cases hn : Names l
  · left
    unfold pathOf
    by_cases hl : l = []
    · subst hl
      rfl
    · rw [if_neg hl, if_neg (joinWith_ne_nil hl hn.seg)]
  · exact Or.inr hn

theorem join_path' {l : List Str} (hn : Names l) : (if joinWith '/' l = [] then dot else joinWith '/' l) = pathOf l :=
  (join_path l).resolve_right fun h => h hn

section
variable {F : FileRoot} (hN : Named (.dir F.content)) (hV : F.ign = false → Valid (.dir F.content))

theorem file_json {l : List Str} (hn : Names l) (hl : l ≠ []) (hc : NoLinkOn (.dir F.content) l) :
    F.json (joinWith '/' l) = some (match (Node.dir F.content).find l with
      | some (.file c _) => .content c
      | _ => .absent) := by
  have ha := at_path (F := F) hn hc
  unfold pathOf at ha
  rw [if_neg hl] at ha
  unfold FileRoot.json FileRoot.isFile
  rw [ha]
  cases hf : (Node.dir F.content).find l with
  | none => rfl
  | some n =>
    cases n with
    | file c x =>
      unfold FileRoot.readContent FileRoot.type
      rw [ha, hf]
      cases x <;> rfl
    | _ => rfl

include hN hV in
theorem file_directory {l : List Str} (hn : Names l) (hc : NoLinkOn (.dir F.content) l) :
    F.directory (joinWith '/' l) = some (some ⟨match (shown F.ign F.content).find l with
      | some (.dir es) => kinds es
      | _ => [], none⟩) := by
  unfold FileRoot.directory
  rw [join_path' hn]
  unfold FileRoot.isDirectory
  rw [at_path hn hc]
  cases hf : (Node.dir F.content).find l with
  | none =>
    have : (shown F.ign F.content).find l = none := by
      rw [shown_find hN, hf]
      rfl
    rw [this]
    rfl
  | some n =>
    cases n with
    | dir es =>
      rw [shown_dir hN F.ign hf]
      simp only [if_true]
      unfold FileRoot.readDirectory
      rw [dirAt_path hn hf]
      simp only
      cases hi : F.ign with
      | true =>
        rw [readEntries_true]
        simp only [Option.map_some, seen, if_true, kinds_stripped]
      | false =>
        have hv := (hV hi).under (under_of_find hf)
        rw [readEntries_valid hv]
        rfl
    | _ =>
      have : ∀ es, (shown F.ign F.content).find l ≠ some (.dir es) := by
        intro es h
        obtain ⟨es', h1, -⟩ := shown_dir_conv hN F.ign h
        rw [hf] at h1
        cases h1
      show some (some (Listing.mk [] none)) = _
      cases hq : (shown F.ign F.content).find l with
      | none => rfl
      | some q =>
        cases q with
        | dir es => exact absurd hq (this es)
        | _ => rfl

theorem containsBlob_iff {es : Entries} (hd : (es.map Prod.fst).Nodup) (x : Str) (k : Option Entries) :
    containsBlob ⟨kinds es, k⟩ x = match entryIn es x with
      | some (.file _ _) => true
      | some (.link _) => true
      | _ => false := by
  induction es with
  | nil => rfl
  | cons e t ih =>
    obtain ⟨y, n⟩ := e
    rw [List.map_cons, List.nodup_cons] at hd
    have ht := ih hd.2
    unfold containsBlob kinds at ht ⊢
    rw [List.map_cons, List.any_cons]
    unfold entryIn
    by_cases hy : y = x
    · have hno : (entryIn t x) = none := by
        cases hx : entryIn t x with
        | none => rfl
        | some m =>
          have := mem_of_entryIn hx
          rw [← hy] at this
          exact absurd (List.mem_map.2 ⟨_, this, rfl⟩) hd.1
      rw [hno] at ht
      simp only at ht
      simp only [hy, if_true]
      rw [ht]
      cases n with
      | file c b => cases b <;> simp [Node.kind]
      | _ => simp [Node.kind]
    · have : (y == x) = false := by simpa using hy
      rw [if_neg hy]
      simp only [this, Bool.false_and, Bool.false_or]
      exact ht

theorem upload_file {l : List Str} (hn : Names l) (hl : l ≠ []) {n : Node} (hf : (Node.dir F.content).find l = some n)
    (hv : Valid n) : F.upload (joinWith '/' l) = some n.asSource := by
  have ha := at_path (F := F) hn (noLink_of_find hf)
  unfold pathOf at ha
  rw [if_neg hl, hf] at ha
  unfold FileRoot.upload FileRoot.blobType FileRoot.readContent FileRoot.type
  rw [ha]
  cases n with
  | file c x => cases x <;> rfl
  | link c =>
    cases hv with
    | link h =>
      simp [nonUpwards_inside.2 h, Node.asSource]
  | other => rfl
  | dir es => rfl

theorem Named.seen {es : Entries} (h : Named (.dir es)) (ign : Bool) : ((seen ign es).map Prod.fst).Nodup := by
  cases h with
  | dir h1 h2 h3 =>
    cases ign with
    | false => exact h2
    | true =>
      have : (stripped es).map Prod.fst = (es.filter fun e => !e.2.special).map Prod.fst := by
        rw [stripped_eq, List.map_map]
        rfl
      show ((stripped es).map Prod.fst).Nodup
      rw [this]
      exact h2.sublist (List.Sublist.map _ List.filter_sublist)

include hN hV in
theorem file_source {m l : List Str} (hm : Names m) (hn : Names l) (hl : l ≠ []) (hc : NoLinkOn (.dir F.content) (m ++ l)) :
    F.source (joinWith '/' m) (joinWith '/' l) =
      some (((shown F.ign F.content).find (m ++ l)).bind Node.asSource) := by
  obtain ⟨k, x, rfl⟩ : ∃ k x, l = k ++ [x] := ⟨_, _, (List.dropLast_append_getLast hl).symm⟩
  have hx : ProperName x := hn x (by simp)
  have hmk : Names (m ++ k) := hm.append hn.left
  have hall : Names (m ++ (k ++ [x])) := hm.append hn
  have hne : m ++ (k ++ [x]) ≠ [] := by simp
  unfold FileRoot.source
  rw [outside_join hn hl, lexNormal_join hn, append_join hm hn hl]
  simp only
  have hpar : parentPath (joinWith '/' (m ++ (k ++ [x]))) = joinWith '/' (m ++ k) := by
    rw [← List.append_assoc] at hall ⊢
    exact parentPath_join hall
  rw [hpar, file_directory hN hV hmk (noLink_left (m := [x]) (by rwa [List.append_assoc])), filename_join hx]
  simp only
  rw [← List.append_assoc] at hall hne ⊢
  rw [find_append _ (m ++ k) [x]]
  cases hp : (shown F.ign F.content).find (m ++ k) with
  | none => rfl
  | some p =>
    cases p with
    | dir es =>
      obtain ⟨es', h1, h2⟩ := shown_dir_conv hN F.ign hp
      have hN' : Named (.dir es') := hN.under (under_of_find h1)
      have hnd := hN'.seen F.ign
      rw [← h2] at hnd
      simp only
      rw [containsBlob_iff hnd, Option.bind_some, find_cons]
      cases hx' : entryIn es x with
      | none => rfl
      | some n =>
        have hfull : (shown F.ign F.content).find (m ++ k ++ [x]) = some n := by
          rw [find_append, hp, Option.bind_some, find_cons, hx', Option.bind_some, find_nil]
        rw [Option.bind_some, find_nil, Option.bind_some]
        rw [shown_find hN] at hfull
        cases hf : (Node.dir F.content).find (m ++ k ++ [x]) with
        | none =>
          rw [hf] at hfull
          cases hfull
        | some n0 =>
          rw [hf, Option.bind_some] at hfull
          cases hi : F.ign with
          | false =>
            rw [hi] at hfull
            cases hfull
            have hv : Valid n := (hV hi).under (under_of_find hf)
            have hup := upload_file hall hne hf hv
            cases n with
            | file c b => exact hup
            | link c => exact hup
            | _ => rfl
          | true =>
            rw [hi] at hfull
            simp only [if_true] at hfull
            split at hfull
            · cases hfull
            · rename_i hns
              cases hfull
              cases n0 with
              | file c b => exact upload_file hall hne hf (.file c b)
              | link c => exact absurd ⟨hne, rfl⟩ hns
              | other => exact absurd ⟨hne, rfl⟩ hns
              | dir es0 => rfl
    | _ => rfl

end

/-! ## Source trees -/

/-- The answers are as seen in a tree. -/
structure Serves {σ : Type} (R : Reader σ) (I : σ → Prop) (T : Node) : Prop where
  source : ∀ s m x es, I s → Names m → ProperName x → T.find m = some (.dir es) →
    ∃ s', R.source s (joinWith '/' m) x = some ((T.find (m ++ [x])).bind Node.asSource, s') ∧ I s'
  directory : ∀ s m es, I s → Names m → T.find m = some (.dir es) →
    ∃ L s', R.directory s (joinWith '/' m) = some (some L, s') ∧ I s' ∧ L.entries = kinds es ∧ ∀ k, L.known = some k → k = es

theorem treeGo_serves {σ : Type} {R : Reader σ} {I : σ → Prop} {T : Node} (hR : Serves R I T) {n : Nat} {m : List Str}
    {es0 : Entries} (hm : Names m) (hT : T.find m = some (.dir es0)) (hnd : (es0.map Prod.fst).Nodup) (hpn : ∀ e ∈ es0, ProperName e.1)
    (hk : ∀ e ∈ es0, e.2 ≠ .other)
    (hsub : ∀ s x es, I s → ProperName x → T.find (m ++ [x]) = some (.dir es) → (x, Node.dir es) ∈ es0 →
      ∃ s', treeTarget R n s (joinWith '/' (m ++ [x])) = some (some (.dir es), s') ∧ I s')
    (es : Entries) (hes : es ⊆ es0) (s : σ) (hs : I s) :
    ∃ s', treeGo R (treeTarget R n) (joinWith '/' m) (kinds es) s = some (some es, s') ∧ I s' := by
  induction es generalizing s with
  | nil => exact ⟨s, rfl, hs⟩
  | cons e t ih =>
    obtain ⟨x, nd⟩ := e
    have hmem : (x, nd) ∈ es0 := hes (by simp)
    have hx := hpn _ hmem
    have hfind : T.find (m ++ [x]) = some nd := by
      rw [find_append, hT, Option.bind_some, find_cons, entryIn_of_mem hnd hmem, Option.bind_some, find_nil]
    have hstep : ∃ s', (if nd.kind = some .tree then treeTarget R n s (append (joinWith '/' m) x)
        else R.source s (joinWith '/' m) x) = some (some nd, s') ∧ I s' := by
      obtain ⟨s', h1, h2⟩ := hR.source s m x es0 hs hm hx hT
      rw [hfind, Option.bind_some] at h1
      cases nd with
      | dir es' =>
        rw [if_pos (by rfl), append_one hm hx]
        exact hsub s x es' hs hx hfind hmem
      | file c b =>
        refine ⟨s', ?_, h2⟩
        rw [if_neg (by cases b <;> simp [Node.kind]), h1]
        rfl
      | link c =>
        refine ⟨s', ?_, h2⟩
        rw [if_neg (by simp [Node.kind]), h1]
        rfl
      | other => exact absurd rfl (hk _ hmem)
    obtain ⟨s', h1, h2⟩ := hstep
    obtain ⟨s'', h3, h4⟩ := ih (fun e he => hes (List.mem_cons_of_mem _ he)) s' h2
    refine ⟨s'', ?_, h4⟩
    have : kinds ((x, nd) :: t) = (x, nd.kind) :: kinds t := rfl
    rw [this]
    unfold treeGo
    rw [h1]
    simp only
    rw [h3]
    rfl

theorem treeTarget_serves {σ : Type} {R : Reader σ} {I : σ → Prop} {T : Node} (hR : Serves R I T) (hT : Named T)
    (ho : ∀ p, T.find p ≠ some .other) (n : Nat) (s : σ) (m : List Str) (es : Entries) (hs : I s) (hm : Names m)
    (hf : T.find m = some (.dir es)) (hd : Deep n (.dir es)) :
    ∃ s', treeTarget R n s (joinWith '/' m) = some (some (.dir es), s') ∧ I s' := by
  induction n generalizing s m es with
  | zero =>
    cases hd with
    | leaf h => exact absurd rfl (h es)
  | succ n ih =>
    obtain ⟨L, s', h1, h2, h3, h4⟩ := hR.directory s m es hs hm hf
    unfold treeTarget
    rw [h1]
    simp only
    cases hk : L.known with
    | some k =>
      rw [h4 k hk]
      exact ⟨s', rfl, h2⟩
    | none =>
      simp only
      have hN : Named (.dir es) := hT.under (under_of_find hf)
      cases hN with
      | dir g1 g2 g3 =>
        have hsubs : ∀ e ∈ es, Deep n e.2 := by
          cases hd with
          | leaf h => exact absurd rfl (h es)
          | dir h => exact h
        have hoth : ∀ e ∈ es, e.2 ≠ .other := by
          rintro ⟨x, nd⟩ he e'
          apply ho (m ++ [x])
          rw [find_append, hf, Option.bind_some, find_cons, entryIn_of_mem g2 he, Option.bind_some, find_nil]
          exact congrArg some e'
        obtain ⟨s'', h5, h6⟩ := treeGo_serves (n := n) hR hm hf g2 g1 hoth
          (fun s x es' hs hx hfx hmem => ih s (m ++ [x]) es' hs (hm.snoc hx) hfx (hsubs _ hmem)) es (List.Subset.refl _) s' h2
        rw [h3, h5]
        exact ⟨s'', rfl, h6⟩

end Verif.Root
