import Verif.AddCas.Props

/-!
# Adding to the CAS what a link given on the command line leads to (C109)
-/

namespace Verif.AddCas

open Verif Verif.Path
open Verif.Tree (Info)

variable {fs : Node}

/-- Path resolution as a relation: following at most so many links. -/
inductive Leads (fs : Node) (follow : Bool) : Nat → List Str → List Str → List Str → Prop where
  | done (b : Nat) (pos : List Str) : Leads fs follow b pos [] pos
  | dot {b : Nat} {pos rest r : List Str} {es : List (Str × Node)} (hd : fs.find pos = some (.dir es))
      (h : Leads fs follow b pos rest r) : Leads fs follow b pos (dot :: rest) r
  | up {b : Nat} {pos rest r : List Str} {es : List (Str × Node)} (hd : fs.find pos = some (.dir es))
      (h : Leads fs follow b pos.dropLast rest r) : Leads fs follow b pos (dotdot :: rest) r
  | last {b : Nat} {pos : List Str} {c t : Str} {es : List (Str × Node)} (hd : fs.find pos = some (.dir es))
      (hc : c ≠ dot ∧ c ≠ dotdot) (ha : assoc c es = some (.link t)) (hf : follow = false) :
      Leads fs follow b pos [c] (pos ++ [c])
  | jump {b : Nat} {pos rest r : List Str} {c t : Str} {es : List (Str × Node)} (hd : fs.find pos = some (.dir es))
      (hc : c ≠ dot ∧ c ≠ dotdot) (ha : assoc c es = some (.link t)) (hf : ¬ (rest = [] ∧ follow = false))
      (h : Leads fs follow b (if isAbs t then [] else pos) (comps t ++ rest) r) : Leads fs follow (b + 1) pos (c :: rest) r
  | step {b : Nat} {pos rest r : List Str} {c : Str} {m : Node} {es : List (Str × Node)} (hd : fs.find pos = some (.dir es))
      (hc : c ≠ dot ∧ c ≠ dotdot) (ha : assoc c es = some m) (hm : m.Real)
      (h : Leads fs follow b (pos ++ [c]) rest r) : Leads fs follow b pos (c :: rest) r

theorem leads_in {follow : Bool} {b : Nat} {jump : List Str → List Str → Option (List Str)}
    (hj : ∀ pos l r, jump pos l = some r → ∃ b', b = b' + 1 ∧ Leads fs follow b' pos l r) :
    ∀ (l pos r : List Str), walkIn fs jump follow pos l = some r → Leads fs follow b pos l r
  | [], pos, r, h => by
    rw [walkIn] at h
    cases h
    exact .done _ _
  | c :: rest, pos, r, h => by
    rw [walkIn] at h
    cases hd : fs.find pos with
    | none =>
      rw [hd] at h
      cases h
    | some nd =>
      rw [hd] at h
      cases nd with
      | dir es =>
        dsimp only at h
        by_cases h1 : c = dot
        · rw [if_pos h1] at h
          subst h1
          exact .dot hd (leads_in hj rest pos r h)
        · rw [if_neg h1] at h
          by_cases h2 : c = dotdot
          · rw [if_pos h2] at h
            subst h2
            exact .up hd (leads_in hj rest _ r h)
          · rw [if_neg h2] at h
            cases ha : assoc c es with
            | none =>
              rw [ha] at h
              cases h
            | some m =>
              rw [ha] at h
              cases m with
              | link t =>
                dsimp only at h
                by_cases hf : rest = [] ∧ follow = false
                · rw [if_pos hf] at h
                  cases h
                  rw [hf.1]
                  exact .last hd ⟨h1, h2⟩ ha hf.2
                · rw [if_neg hf] at h
                  obtain ⟨b', rfl, hl⟩ := hj _ _ _ h
                  exact .jump hd ⟨h1, h2⟩ ha hf hl
              | file i => exact .step hd ⟨h1, h2⟩ ha trivial (leads_in hj rest _ r h)
              | dir es' => exact .step hd ⟨h1, h2⟩ ha trivial (leads_in hj rest _ r h)
              | special => exact .step hd ⟨h1, h2⟩ ha trivial (leads_in hj rest _ r h)
      | file i => cases h
      | link t => cases h
      | special => cases h

theorem leads_of {follow : Bool} : ∀ {b : Nat} {pos l r : List Str}, walk fs follow b pos l = some r → Leads fs follow b pos l r
  | 0, pos, l, r, h => leads_in (by intro _ _ _ h; cases h) l pos r h
  | b + 1, pos, l, r, h => leads_in (fun _ _ _ h => ⟨b, rfl, leads_of h⟩) l pos r h

theorem Leads.mono {follow : Bool} {b : Nat} {pos l r : List Str} (h : Leads fs follow b pos l r) :
    ∀ {b' : Nat}, b ≤ b' → Leads fs follow b' pos l r := by
  induction h with
  | done b pos => exact fun _ => .done _ _
  | dot hd _ ih => exact fun hb => .dot hd (ih hb)
  | up hd _ ih => exact fun hb => .up hd (ih hb)
  | last hd hc ha hf => exact fun _ => .last hd hc ha hf
  | jump hd hc ha hf _ ih =>
    intro b' hb
    cases b' with
    | zero => omega
    | succ b' => exact .jump hd hc ha hf (ih (by omega))
  | step hd hc ha hm _ ih => exact fun hb => .step hd hc ha hm (ih hb)

theorem dir_inj {pos : List Str} {es es' : List (Str × Node)} (h : fs.find pos = some (.dir es))
    (h' : fs.find pos = some (.dir es')) : es = es' := by
  rw [h] at h'
  injection h' with h'
  injection h'

/-- The result does not depend on the number of links allowed. -/
theorem Leads.unique {follow : Bool} {b : Nat} {pos l r : List Str} (h : Leads fs follow b pos l r) :
    ∀ {b' : Nat} {r' : List Str}, Leads fs follow b' pos l r' → r = r' := by
  induction h with
  | done b pos =>
    intro b' r' h'
    cases h'
    rfl
  | dot hd _ ih =>
    intro b' r' h'
    cases h' with
    | dot _ h => exact ih h
    | last _ hc => exact absurd rfl hc.1
    | jump _ hc => exact absurd rfl hc.1
    | step _ hc => exact absurd rfl hc.1
  | up hd _ ih =>
    intro b' r' h'
    cases h' with
    | up _ h => exact ih h
    | last _ hc => exact absurd rfl hc.2
    | jump _ hc => exact absurd rfl hc.2
    | step _ hc => exact absurd rfl hc.2
  | last hd hc ha hf =>
    intro b' r' h'
    cases h' with
    | dot => exact absurd rfl hc.1
    | up => exact absurd rfl hc.2
    | last => rfl
    | jump _ _ _ hf' => exact absurd ⟨rfl, hf⟩ hf'
    | step hd' _ ha' hm =>
      cases dir_inj hd hd'
      rw [ha] at ha'
      cases ha'
      exact hm.elim
  | jump hd hc ha hf _ ih =>
    intro b' r' h'
    cases h' with
    | dot => exact absurd rfl hc.1
    | up => exact absurd rfl hc.2
    | last _ _ _ hf' => exact absurd ⟨rfl, hf'⟩ hf
    | jump hd' _ ha' _ h =>
      cases dir_inj hd hd'
      rw [ha] at ha'
      cases ha'
      exact ih h
    | step hd' _ ha' hm =>
      cases dir_inj hd hd'
      rw [ha] at ha'
      cases ha'
      exact hm.elim
  | step hd hc ha hm _ ih =>
    intro b' r' h'
    cases h' with
    | dot => exact absurd rfl hc.1
    | up => exact absurd rfl hc.2
    | last hd' _ ha' =>
      cases dir_inj hd hd'
      rw [ha] at ha'
      cases ha'
      exact hm.elim
    | jump hd' _ ha' =>
      cases dir_inj hd hd'
      rw [ha] at ha'
      cases ha'
      exact hm.elim
    | step _ _ _ _ h => exact ih h

/-- All links but those at the end are followed in any case. -/
theorem Leads.split {follow : Bool} {b : Nat} {pos l r : List Str} (h : Leads fs follow b pos l r) :
    ∀ {f g : List Str}, l = f ++ g → g ≠ [] ∨ follow = true → ∃ m, Leads fs true b pos f m ∧ Leads fs follow b m g r := by
  induction h with
  | done b pos =>
    intro f g e _
    obtain ⟨rfl, rfl⟩ := List.append_eq_nil_iff.1 e.symm
    exact ⟨pos, .done _ _, .done _ _⟩
  | @dot b pos rest r es hd h ih =>
    intro f g e hg
    cases f with
    | nil =>
      cases e
      exact ⟨pos, .done _ _, .dot hd h⟩
    | cons c f =>
      injection e with e1 e2
      subst e1
      obtain ⟨m, h1, h2⟩ := ih e2 hg
      exact ⟨m, .dot hd h1, h2⟩
  | @up b pos rest r es hd h ih =>
    intro f g e hg
    cases f with
    | nil =>
      cases e
      exact ⟨pos, .done _ _, .up hd h⟩
    | cons c f =>
      injection e with e1 e2
      subst e1
      obtain ⟨m, h1, h2⟩ := ih e2 hg
      exact ⟨m, .up hd h1, h2⟩
  | @last b pos c t es hd hc ha hf =>
    intro f g e hg
    cases f with
    | nil =>
      cases e
      exact ⟨pos, .done _ _, .last hd hc ha hf⟩
    | cons c' f =>
      injection e with e1 e2
      obtain ⟨rfl, rfl⟩ := List.append_eq_nil_iff.1 e2.symm
      rcases hg with hg | hg
      · exact absurd rfl hg
      · rw [hf] at hg
        cases hg
  | @jump b pos rest r c t es hd hc ha hf h ih =>
    intro f g e hg
    cases f with
    | nil =>
      cases e
      exact ⟨pos, .done _ _, .jump hd hc ha hf h⟩
    | cons c' f =>
      injection e with e1 e2
      subst e1 e2
      obtain ⟨m, h1, h2⟩ := ih (List.append_assoc _ _ _).symm hg
      exact ⟨m, .jump hd hc ha (by simp) h1, h2.mono (Nat.le_succ _)⟩
  | @step b pos rest r c m es hd hc ha hm h ih =>
    intro f g e hg
    cases f with
    | nil =>
      cases e
      exact ⟨pos, .done _ _, .step hd hc ha hm h⟩
    | cons c' f =>
      injection e with e1 e2
      subst e1
      obtain ⟨m, h1, h2⟩ := ih e2 hg
      exact ⟨m, .step hd hc ha hm h1, h2⟩

theorem Leads.join {b : Nat} {pos f m : List Str} (h : Leads fs true b pos f m) :
    ∀ {b' : Nat} {g r : List Str}, Leads fs true b' m g r → Leads fs true (b + b') pos (f ++ g) r := by
  induction h with
  | done b pos => exact fun h => h.mono (Nat.le_add_left _ _)
  | dot hd _ ih => exact fun h => .dot hd (ih h)
  | up hd _ ih => exact fun h => .up hd (ih h)
  | last _ _ _ hf => cases hf
  | @jump b pos rest r c t es hd hc ha hf _ ih =>
    intro b' g r' h
    have := ih h
    rw [List.append_assoc] at this
    rw [Nat.add_right_comm]
    exact .jump hd hc ha (by simp) this
  | step hd hc ha hm _ ih => exact fun h => .step hd hc ha hm (ih h)

/-- If a path leads to a link without that being followed, then that is the last segment of the path. -/
theorem Leads.link (h0 : ∃ es, fs = .dir es) {b : Nat} {p q : List Str} {t : Str} (h : Leads fs false b [] p q)
    (hq : fs.find q = some (.link t)) : ∃ f c D es, p = f ++ [c] ∧ Leads fs true b [] f D ∧ fs.find D = some (.dir es) ∧
      (c ≠ Path.dot ∧ c ≠ Path.dotdot) ∧ assoc c es = some (.link t) := by
  rcases Symlinks.eq_nil_or_snoc p with rfl | ⟨f, c, rfl⟩
  · cases h
    obtain ⟨es, rfl⟩ := h0
    cases hq
  · obtain ⟨D, h1, h2⟩ := h.split rfl (.inl (by simp))
    refine ⟨f, c, D, ?_⟩
    cases h2 with
    | dot hd h =>
      cases h
      rw [hd] at hq
      cases hq
    | up hd h =>
      cases h
      rcases Symlinks.eq_nil_or_snoc D with rfl | ⟨D, a, rfl⟩
      · rw [List.dropLast_nil, hd] at hq
        cases hq
      · rw [List.dropLast_concat] at hq
        obtain ⟨es, he⟩ := find_dir (p := D) (q := [a]) (by simp) hd
        rw [he] at hq
        cases hq
    | last hd hc ha _ =>
      rw [find_snoc hd, ha] at hq
      cases hq
      exact ⟨_, rfl, h1, hd, hc, ha⟩
    | jump _ _ _ hf => exact absurd ⟨rfl, rfl⟩ hf
    | step hd hc ha hm h =>
      cases h
      rw [find_snoc hd, ha] at hq
      cases hq
      exact hm.elim

/-- Where a path leads to without following a link at the end, it leads to when following it, unless it is a link. -/
theorem Leads.follow {b : Nat} {p q : List Str} (h : Leads fs false b [] p q)
    (hq : ∀ t, fs.find q ≠ some (.link t)) : Leads fs true b [] p q := by
  rcases Symlinks.eq_nil_or_snoc p with rfl | ⟨f, c, rfl⟩
  · cases h
    exact .done _ _
  · obtain ⟨D, h1, h2⟩ := h.split rfl (.inl (by simp))
    have key : Leads fs true 0 D [c] q := by
      cases h2 with
      | dot hd h =>
        cases h
        exact .dot hd (.done _ _)
      | up hd h =>
        cases h
        exact .up hd (.done _ _)
      | last hd hc ha _ => exact absurd ((find_snoc hd _).trans ha) (hq _)
      | jump _ _ _ hf => exact absurd ⟨rfl, rfl⟩ hf
      | step hd hc ha hm h =>
        cases h
        exact .step hd hc ha hm (.done _ _)
    exact h1.join key

theorem comps_ne_nil {t : Str} (ht : t ≠ []) (ha : ¬ isAbs t) : comps t ≠ [] := by
  cases t with
  | nil => exact absurd rfl ht
  | cons c t =>
    have hc : c ≠ '/' := fun e => ha (by rw [e]; rfl)
    have : ∃ x l, splitAt '/' (c :: t) = (c :: x) :: l := by
      rw [splitAt, if_neg (by simpa using hc)]
      cases splitAt '/' t with
      | nil => exact ⟨_, _, rfl⟩
      | cons y l => exact ⟨_, _, rfl⟩
    obtain ⟨x, l, e⟩ := this
    unfold comps names
    rw [e]
    simp

/-- Following links ends where the operating system says. -/
theorem resolveSymlinks_spec {W : World} (h0 : ∃ es, W.fs = .dir es) {r : List Str} :
    ∀ (n : Nat) (p p' : List Str), resolveSymlinks W n p = some p' → (∃ b, Leads W.fs true b [] p r) →
      (∃ b, Leads W.fs true b [] p' r) ∧ ∀ t, lstat W p' ≠ some (.link t)
  | 0, _, _, h, _ => by cases h
  | n + 1, p, p', h, hr => by
    rw [resolveSymlinks] at h
    split at h
    · rename_i t ht
      refine resolveSymlinks_spec h0 n _ p' h ?_
      obtain ⟨q, hw, hq⟩ := Option.bind_eq_some_iff.1 ht
      obtain ⟨f, c, D, es, rfl, h1, hd, hc, ha⟩ := (leads_of hw).link h0 hq
      obtain ⟨b, hb⟩ := hr
      obtain ⟨D', h2, h3⟩ := hb.split rfl (.inr rfl)
      cases h1.unique h2
      rw [List.dropLast_concat]
      cases h3 with
      | dot => exact absurd rfl hc.1
      | up => exact absurd rfl hc.2
      | last _ _ _ hf => cases hf
      | jump hd' _ ha' _ h =>
        cases dir_inj hd hd'
        rw [ha] at ha'
        cases ha'
        rw [List.append_nil] at h
        split
        · rename_i hab
          rw [if_pos hab] at h
          exact ⟨_, h⟩
        · rename_i hab
          rw [if_neg hab] at h
          exact ⟨_, h1.join h⟩
      | step hd' _ ha' hm =>
        cases dir_inj hd hd'
        rw [ha] at ha'
        cases ha'
        exact hm.elim
    · rename_i hn
      cases h
      exact ⟨hr, fun t e => hn t e⟩

theorem resolveSymlinks_ends {W : World} (h0 : ∃ es, W.fs = .dir es) {r : List Str} (hp : Proper W.fs) :
    ∀ (n b b' : Nat) (f g D : List Str), Leads W.fs true b' [] f D → Leads W.fs true b D g r → g ≠ [] ∨ f = [] → b < n →
      ∃ p', resolveSymlinks W n (f ++ g) = some p'
  | 0, b, _, _, _, _, _, _, _, hb => by omega
  | n + 1, b, b', f, g, D, h1, h2, hg, hb => by
    rw [resolveSymlinks]
    split
    · rename_i t ht
      obtain ⟨q, hw, hq⟩ := Option.bind_eq_some_iff.1 ht
      obtain ⟨f', c, D', es, e, h3, hd, hc, ha⟩ := (leads_of hw).link h0 hq
      rcases Symlinks.eq_nil_or_snoc g with rfl | ⟨g, c', rfl⟩
      · rcases hg with hg | hg
        · exact absurd rfl hg
        · rw [hg] at e
          exact absurd e.symm (by simp)
      · rw [← List.append_assoc] at e
        obtain ⟨e1, e2⟩ := List.append_inj' e rfl
        cases e2
        subst e1
        obtain ⟨D2, h4, h5⟩ := h2.split rfl (.inr rfl)
        cases (h1.join h4).unique h3
        rw [← List.append_assoc, List.dropLast_concat]
        have ht0 : t ≠ [] := by
          have := (hp.find hq).1
          cases this
          assumption
        cases h5 with
        | dot => exact absurd rfl hc.1
        | up => exact absurd rfl hc.2
        | last _ _ _ hf => cases hf
        | jump hd' _ ha' _ h =>
          cases dir_inj hd hd'
          rw [ha] at ha'
          cases ha'
          rw [List.append_nil] at h
          split
          · rename_i hab
            rw [if_pos hab] at h
            exact resolveSymlinks_ends h0 hp n _ 0 [] _ [] (.done _ _) h (.inr rfl) (by omega)
          · rename_i hab
            rw [if_neg hab] at h
            exact resolveSymlinks_ends h0 hp n _ _ _ _ _ h3 h (.inl (comps_ne_nil ht0 hab)) (by omega)
        | step hd' _ ha' hm =>
          cases dir_inj hd hd'
          rw [ha] at ha'
          cases ha'
          exact hm.elim
    · exact ⟨_, rfl⟩

variable {W : World} {n : Nat} {d d' : Disk} {i : Info}

theorem followed (h0 : ∃ es, W.fs = .dir es) {p p' r : List Str} (hs : resolveSymlinks W n p = some p') {b : Nat}
    (hr : Leads W.fs true b [] p r) {m : Node} (hm : W.fs.find r = some m) : lstat W p' = none ∨ lstat W p' = some m := by
  obtain ⟨⟨b', h1⟩, h2⟩ := resolveSymlinks_spec h0 n p p' hs ⟨b, hr⟩
  cases hl : lstat W p' with
  | none => exact .inl rfl
  | some m' =>
    obtain ⟨q, hw, hq⟩ := Option.bind_eq_some_iff.1 hl
    have h3 := (leads_of hw).follow fun t e => h2 t (by rw [hl, ← hq, e])
    cases h3.unique h1
    exact .inr (hq.symm.trans hm)

/-- **C109.** If links given are to be followed, then what is added is what the path leads to, as if its real path had been
given. What is missing: directories reached over links. -/
theorem C109_follow_partial (hp : Proper W.fs) (h0 : ∃ es, W.fs = .dir es) {p r : List Str} (hr : Resolves W.fs p r) {m : Node}
    (hm : W.fs.find r = some m) (hd : ∀ es, m ≠ .dir es) (h : add W n true p d = .printed i d') :
    add W n false r d = .printed i d' := by
  unfold add at h ⊢
  rw [if_pos rfl] at h
  rw [if_neg (by decide)]
  cases hs : resolveSymlinks W n p with
  | none =>
    rw [hs] at h
    cases h
  | some p' =>
    rw [hs] at h
    dsimp only at h
    obtain ⟨b, hb⟩ := hr
    rcases followed h0 hs (leads_of hb) hm with key | key
    · unfold addAt at h
      rw [key] at h
      cases h
    · unfold addAt at h ⊢
      rw [key] at h
      rw [lstat_find hp hm]
      cases m with
      | dir es => exact absurd rfl (hd es)
      | file j => exact h
      | link t => exact h
      | special => exact h

/-- **C109.** Following links ends, if the path leads somewhere. What is missing: directories reached over links, and that it
ends in any case (V108). -/
theorem C109_follow_ends_partial (hp : Proper W.fs) (h0 : ∃ es, W.fs = .dir es) {p r : List Str} (hr : Resolves W.fs p r) {m : Node}
    (hm : W.fs.find r = some m) (hd : ∀ es, m ≠ .dir es) : ∃ N, ∀ n, N ≤ n → add W n true p d ≠ .more := by
  obtain ⟨b, hb⟩ := hr
  refine ⟨b + 1, fun n hn => ?_⟩
  obtain ⟨p', hp'⟩ := resolveSymlinks_ends h0 hp n b 0 [] p [] (.done _ _) (leads_of hb) (.inr rfl) (by omega)
  rw [List.nil_append] at hp'
  rw [add, if_pos rfl, hp']
  show addAt W n p' d ≠ .more
  unfold addAt
  rcases followed h0 hp' (leads_of hb) hm with key | key
  · rw [key]
    exact (nomatch ·)
  · rw [key]
    cases m with
    | dir es => exact absurd rfl (hd es)
    | file j => exact (nomatch ·)
    | link t => exact (nomatch ·)
    | special => exact (nomatch ·)

end Verif.AddCas
