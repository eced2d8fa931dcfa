import Verif.Symlinks.More

/-!
# Resolving symbolic links: when there is a result
-/

namespace Verif.Symlinks

open Verif.Path

variable {root : Node} {m : Mode} {readable : Node → Bool}

/-! ## Requests that wait for each other -/

/-- A set of paths such that each waits for another one of them. -/
structure Stuck (root : Node) (m : Mode) (S : List Str → Prop) : Prop where
  pre : ∀ l x, S (l ++ [x]) → S l
  file : ∀ l id x, S l → root.find l ≠ some (.file id x)
  tree : ∀ l es, S l → root.find l = some (.tree es) → ∃ e ∈ es, S (l ++ [e.1])
  link : ∀ l c, S l → root.find l = some (.link c) → (m = .completely ∨ nonUpwards c = .val false) ∧
    ∀ l', Good l' → targetPath (render l) c = render l' → S l'

theorem target_good {l : List Str} {c : Str} (hl : Good l) (hc : confined c (render l) = .val true) :
    ∃ l', Good l' ∧ targetPath (render l) c = render l' := by
  rcases eq_nil_or_snoc l with h | ⟨d, x, h⟩
  · rw [h] at hc ⊢
    obtain ⟨ha, hu'⟩ := confined_dot hc
    refine ⟨_, spot_good (dir := []) (c := c) (by simp [Good]), ?_⟩
    unfold targetPath
    have : parentPath (render []) = joinWith '/' [] := by decide
    rw [this, toNormalPath_eq, place_target (by simp [Good]) ha, spot_eq hu']
    rfl
  · rw [h] at hc hl ⊢
    exact ⟨_, spot_good hl.left, targetPath_render hl hc⟩

/-- Neither the path nor where the value is from is in the set. -/
def Off (S : List Str → Prop) (r : Resolved) : Prop := ∀ l, Good l → r.path = render l → ¬ S l

theorem off_self {S : List Str → Prop} {l : List Str} (n : Node) (hl : Good l) (h : ¬ S l) : Off S ⟨n, render l⟩ := by
  intro l' hl' he
  rw [← render_inj hl hl' he]
  exact h

mutual

theorem val_stuck {S : List Str → Prop} (hS : Stuck root m S) (hp : Proper root) (hm : m ≠ .ignore) {p : Str} {r : Resolved} :
    Val root m readable p r → ∀ l, Good l → p = render l → ¬ S l ∧ Off S r
  | .source h hk => by
    intro l hl hpl
    have h' := h
    rw [hpl, getObject_render hl] at h'
    exact known_stuck hS hp hm hk l hl hpl (proper_find hp h') (Or.inl h')
  | .missing h _ _ hv htr he hk => by
    intro l hl hpl
    have h' := h
    rw [hpl] at h'
    obtain ⟨d, x, hd⟩ := missing_snoc hl h'
    rw [hd] at hl hpl ⊢
    have hpd := by
      have := parentPath_render hl
      rw [← hpl] at this
      exact (congrArg toNormalPath this).trans (normal_join hl.left)
    have h0 := val_stuck hS hp hm hv d hl.left hpd
    obtain ⟨_, h1, lp, h2, h3, h4⟩ := val_fine hp hm hv d hl.left hpd
    have hx : GoodName x := hl x (by simp)
    rw [htr] at h1
    have hn := (proper_entry h1 (entryIn_mem he)).2
    have := known_stuck hS hp hm hk (lp ++ [x]) (h2.snoc hx)
      (by rw [hpl, filename_render hx, h3]; exact childPath_render h2 hx) hn
      (Or.inr fun h => h0.2 lp h2 h3 (hS.pre _ _ h))
    exact ⟨fun h => h0.1 (hS.pre _ _ h), this.2⟩
  | .known hq hk => by
    intro l hl hpl
    obtain ⟨l', hl', h1, h2, h3⟩ := asked_stuck hS hp hm hq
    have h2' : ¬ S l := (render_inj hl hl' (hpl.symm.trans h1)) ▸ h2
    exact known_stuck hS hp hm hk l hl hpl h3 (Or.inr h2')

theorem known_stuck {S : List Str → Prop} (hS : Stuck root m S) (hp : Proper root) (hm : m ≠ .ignore) {p : Str} {n : Node}
    {r : Resolved} : Known root m readable p n r → ∀ l, Good l → p = render l → Proper n → root.find l = some n ∨ ¬ S l →
      ¬ S l ∧ Off S r
  | .file => by
    intro l hl hpl hn hs
    have hf : ¬ S l := hs.elim (fun h hs => hS.file _ _ _ hs h) id
    rw [hpl]
    exact ⟨hf, off_self _ hl hf⟩
  | .tree (es := es) (f := f) _ hf => by
    intro l hl hpl hn hs
    have hw := wanted_all hm es
    have hh : ∀ e ∈ es, ¬ S (l ++ [e.1]) := fun e he =>
      (val_stuck hS hp hm (hf e (hw.symm ▸ he)) (l ++ [e.1]) (hl.snoc (proper_entry hn he).1)
        (by rw [hpl]; exact childPath_render hl (proper_entry hn he).1)).1
    have hfi : ¬ S l := hs.elim (fun h hs => by
      obtain ⟨e, he, hse⟩ := hS.tree _ _ hs h
      exact hh e he hse) id
    rw [hpl]
    exact ⟨hfi, off_self _ hl hfi⟩
  | .keep hm' hc hu => by
    intro l hl hpl hn hs
    have hf : ¬ S l := hs.elim (fun h hs => by
      rcases (hS.link _ _ hs h).1 with h' | h'
      · rw [hm'] at h'
        cases h'
      · rw [hu] at h'
        cases h') id
    rw [hpl]
    exact ⟨hf, off_self _ hl hf⟩
  | .follow (c := c) _ hc hu hv => by
    intro l hl hpl hn hs
    have hc' := hc
    rw [hpl] at hc'
    obtain ⟨l', hg, ht⟩ := target_good hl hc'
    have := val_stuck hS hp hm hv l' hg (by rw [hpl]; exact ht)
    exact ⟨hs.elim (fun h hs => this.1 ((hS.link _ _ hs h).2 l' hg ht)) id, this.2⟩

theorem asked_stuck {S : List Str → Prop} (hS : Stuck root m S) (hp : Proper root) (hm : m ≠ .ignore) {p : Str} {n : Node} :
    Asked root m readable p n → ∃ l, Good l ∧ p = render l ∧ ¬ S l ∧ Proper n
  | .top (p := p) (rp := rp) (es := es) (es' := es') (e := e) hq h _ hv htr he hx => by
    obtain ⟨l, hl, hpl⟩ := requested_render hq
    have h' := h
    rw [hpl] at h'
    obtain ⟨d, x, hd⟩ := missing_snoc hl h'
    rw [hd] at hl hpl
    have hpd := by
      have := parentPath_render hl
      rw [← hpl] at this
      exact (congrArg toNormalPath this).trans (normal_join hl.left)
    have h0 := val_stuck hS hp hm hv d hl.left hpd
    obtain ⟨_, h1, lp, h2, h3, h4⟩ := val_fine hp hm hv d hl.left hpd
    have hxg : GoodName x := hl x (by simp)
    rw [htr] at h1
    have hn := proper_entry (proper_entry h1 (entryIn_mem he)).2 hx
    refine ⟨lp ++ [x] ++ [e.1], (h2.snoc hxg).snoc hn.1, ?_, fun h => h0.2 lp h2 h3 (hS.pre _ _ (hS.pre _ _ h)), hn.2⟩
    rw [hpl, filename_render hxg, h3]
    have : toNormalPath (append (render lp) x) = render (lp ++ [x]) := childPath_render h2 hxg
    rw [this]
    exact childPath_render (h2.snoc hxg) hn.1
  | .deeper (es := es) (e := e) h hx => by
    obtain ⟨l, hl, hpl, hs, hn⟩ := asked_stuck hS hp hm h
    have hn := proper_entry hn hx
    exact ⟨l ++ [e.1], hl.snoc hn.1, by rw [hpl]; exact childPath_render hl hn.1, fun h => hs (hS.pre _ _ h), hn.2⟩

end

/-! ## When there is a result -/

/-- What the value for a path of the source has to wait for, when targets of links are there without going through links. -/
inductive Needs (root : Node) (m : Mode) : List Str → List Str → Prop where
  | entry {l : List Str} {es : List (Str × Node)} {e : Str × Node} (h : root.find l = some (.tree es)) (he : e ∈ es) :
      Needs root m (l ++ [e.1]) l
  | target {l l' : List Str} {c : Str} (h : root.find l = some (.link c)) (hu : m = .completely ∨ nonUpwards c = .val false)
      (hl : Good l') (ht : targetPath (render l) c = render l') : Needs root m l' l

theorem nonUpwards_val {c : Str} (h : c ≠ []) : nonUpwards c = .val true ∨ nonUpwards c = .val false := by
  obtain ⟨b, h1, _⟩ := nonUpwards_eq c h
  cases b
  · exact Or.inr h1
  · exact Or.inl h1

theorem val_total (hp : Proper root) (hm : m ≠ .ignore) (hr : ∀ n, readable n = true)
    (hl : ∀ l c, root.find l = some (.link c) → c ≠ [] ∧ confined c (render l) = .val true ∧
      ∀ l', Good l' → targetPath (render l) c = render l' → (root.find l').isSome)
    {l : List Str} (ha : Acc (Needs root m) l) : ∀ n, root.find l = some n → ∃ r, Val root m readable (render l) r := by
  induction ha with
  | intro l _ ih =>
    intro n hn
    have hg := find_good hp hn
    have hgo : getObject root (render l) = some n := by rw [getObject_render hg]; exact hn
    cases n with
    | file => exact ⟨_, .source hgo .file⟩
    | tree es =>
      have hpr := proper_find hp hn
      cases hpr with
      | tree h1 h2 _ =>
        have hc : ∀ x, ∃ r, (∃ e ∈ es, e.1 = x) → Val root m readable (childPath (render l) x) r := by
          intro x
          by_cases hx : ∃ e ∈ es, e.1 = x
          · obtain ⟨e, he, rfl⟩ := hx
            have hf : root.find (l ++ [e.1]) = some e.2 := by
              rw [find_snoc, hn]
              exact mem_entryIn h2 he
            obtain ⟨r, hr⟩ := ih _ (.entry hn he) _ hf
            exact ⟨r, fun _ => by rw [childPath_render hg (h1 e he)]; exact hr⟩
          · exact ⟨⟨.file [] false, []⟩, fun h => absurd h hx⟩
        obtain ⟨f, hf⟩ := Classical.skolem.1 hc
        refine ⟨_, .source hgo (.tree (f := f) (hr _) ?_)⟩
        intro e he
        rw [wanted_all hm] at he
        exact hf e.1 ⟨e, he, rfl⟩
    | link c =>
      obtain ⟨hne, hc, ht⟩ := hl l c hn
      have hfo : (m = .completely ∨ nonUpwards c = .val false) → ∃ r, Val root m readable (render l) r := by
        intro hu
        obtain ⟨l', hl', he⟩ := target_good hg hc
        obtain ⟨n', hn'⟩ := Option.isSome_iff_exists.1 (ht l' hl' he)
        obtain ⟨r, hr⟩ := ih l' (.target hn hu hl' he) n' hn'
        exact ⟨r, .source hgo (.follow hm hc hu (by rw [he]; exact hr))⟩
      cases m with
      | ignore => exact absurd rfl hm
      | completely => exact hfo (Or.inl rfl)
      | partially =>
        rcases nonUpwards_val hne with h | h
        · exact ⟨_, .source hgo (.keep rfl hc h)⟩
        · exact hfo (Or.inr h)

/-! ## The function -/

theorem mapM_ok {X Y : Type} {g : X → Except Fault Y} : ∀ {l : List X} {rs : List Y}, l.mapM g = .ok rs →
    ∀ x ∈ l, ∃ y, g x = .ok y
  | [], _, _ => by simp
  | a :: l, rs, h => by
    intro x hx
    rw [List.mapM_cons] at h
    cases ha : g a with
    | error e => rw [ha] at h; cases h
    | ok y =>
      rw [ha] at h
      cases hl : l.mapM g with
      | error e =>
        simp only [bind, Except.bind, hl] at h
        cases h
      | ok ys =>
        rcases List.mem_cons.1 hx with rfl | hx
        · exact ⟨y, ha⟩
        · exact mapM_ok hl x hx

theorem mapM_eq {X Y : Type} {g : X → Except Fault Y} {f : X → Y} : ∀ {l : List X}, (∀ x ∈ l, g x = .ok (f x)) →
    l.mapM g = .ok (l.map f)
  | [], _ => rfl
  | a :: l, h => by
    rw [List.mapM_cons, h a (by simp), mapM_eq fun x hx => h x (List.mem_cons_of_mem _ hx)]
    rfl

/-- The value, if there is one. -/
def valueOf (sub : Str → Except Fault Resolved) (p : Str) : Resolved :=
  match sub p with
  | .ok r => r
  | .error _ => ⟨.file [] false, []⟩

theorem known_val {sub : Str → Except Fault Resolved} (hs : ∀ p r, sub p = .ok r → Val root m readable p r) {p : Str} {n : Node}
    {r : Resolved} (h : known m readable sub p n = .ok r) : Known root m readable p n r := by
  cases n with
  | file id x =>
    simp only [known, Except.ok.injEq] at h
    subst h
    exact .file
  | tree es =>
    simp only [known] at h
    by_cases hr : readable (.tree es) = true
    · simp only [if_pos hr] at h
      generalize hg : (fun e : Str × Node => do
        let r ← sub (childPath p e.1)
        return (filename (childPath p e.1), r.node) : Str × Node → Except Fault (Str × Node)) = g at h
      cases hmm : (wanted m es).mapM g with
      | error e =>
        rw [hmm] at h
        cases h
      | ok rs =>
        rw [hmm] at h
        have hv : ∀ e ∈ wanted m es, sub (childPath p e.1) = .ok (valueOf sub (childPath p e.1)) := by
          intro e he
          obtain ⟨y, hy⟩ := mapM_ok hmm e he
          rw [← hg] at hy
          unfold valueOf
          cases hx : sub (childPath p e.1) with
          | ok r => rfl
          | error e =>
            simp only [hx] at hy
            cases hy
        have hrs : (wanted m es).mapM g = .ok ((wanted m es).map fun e => (filename (childPath p e.1),
            (valueOf sub (childPath p e.1)).node)) := by
          refine mapM_eq fun e he => ?_
          rw [← hg]
          simp only [hv e he]
          rfl
        rw [hmm] at hrs
        cases hrs
        cases h
        exact .tree (f := fun x => valueOf sub (childPath p x)) hr fun e he => hs _ _ (hv e he)
    · simp only [if_neg hr] at h
      cases h
  | link c =>
    simp only [known] at h
    by_cases hm : m = .ignore
    · simp only [if_pos hm] at h
      cases h
    · simp only [if_neg hm] at h
      cases hc : confined c p with
      | ub => rw [hc] at h; cases h
      | val b =>
        rw [hc] at h
        cases b with
        | false => cases h
        | true =>
          by_cases hco : m = .completely
          · simp only [if_pos hco] at h
            exact .follow hm hc (Or.inl hco) (hs _ _ h)
          · simp only [if_neg hco] at h
            cases hu : nonUpwards c with
            | ub => rw [hu] at h; cases h
            | val b =>
              rw [hu] at h
              cases b with
              | true =>
                cases h
                refine .keep ?_ hc hu
                cases m with
                | ignore => exact absurd rfl hm
                | completely => exact absurd rfl hco
                | partially => rfl
              | false => exact .follow hm hc (Or.inr hu) (hs _ _ h)

theorem resolve_val {k : Nat} {p : Str} {r : Resolved} (h : resolve root m readable k p = .ok r) : Val root m readable p r := by
  induction k generalizing p r with
  | zero => cases h
  | succ k ih =>
    unfold resolve at h
    cases hg : getObject root p with
    | some n =>
      rw [hg] at h
      exact .source hg (known_val (fun p r => ih) h)
    | none =>
      rw [hg] at h
      by_cases hm : m = .ignore
      · simp only [if_pos hm] at h
        cases h
      · simp only [if_neg hm] at h
        by_cases hp : parentPath p = p
        · simp only [if_pos hp] at h
          cases h
        · simp only [if_neg hp] at h
          cases hv : resolve root m readable k (toNormalPath (parentPath p)) with
          | error e =>
            rw [hv] at h
            cases h
          | ok rp =>
            rw [hv] at h
            simp only [bind, Except.bind] at h
            cases hn : rp.node with
            | file => rw [hn] at h; cases h
            | link => rw [hn] at h; cases h
            | tree es =>
              rw [hn] at h
              cases he : entryIn es (filename p) with
              | none => simp only [he] at h; cases h
              | some n =>
                simp only [he] at h
                exact .missing hg hm hp (ih hv) hn he (known_val (fun p r => ih) h)

/-! ## More depth gives the same -/

theorem mapM_more {X Y : Type} {g g' : X → Except Fault Y} : ∀ {l : List X}, (∀ x ∈ l, g x ≠ .error .unfinished → g' x = g x) →
    l.mapM g ≠ .error .unfinished → l.mapM g' = l.mapM g
  | [], _, _ => rfl
  | a :: l, h, hn => by
    rw [List.mapM_cons] at hn ⊢
    rw [List.mapM_cons]
    have ha : g a ≠ .error .unfinished := by
      intro ha
      rw [ha] at hn
      exact hn rfl
    rw [h a (by simp) ha]
    cases hg : g a with
    | error e => rfl
    | ok y =>
      rw [hg] at hn
      have hl : l.mapM g ≠ .error .unfinished := by
        intro hl
        rw [hl] at hn
        exact hn rfl
      rw [mapM_more (fun x hx => h x (List.mem_cons_of_mem _ hx)) hl]

theorem known_more {sub sub' : Str → Except Fault Resolved} (hs : ∀ p, sub p ≠ .error .unfinished → sub' p = sub p) {p : Str}
    {n : Node} (h : known m readable sub p n ≠ .error .unfinished) : known m readable sub' p n = known m readable sub p n := by
  cases n with
  | file => rfl
  | tree es =>
    simp only [known] at h ⊢
    by_cases hr : readable (.tree es) = true
    · simp only [if_pos hr] at h ⊢
      rw [mapM_more (g := fun e => do
        let r ← sub (childPath p e.1)
        return (filename (childPath p e.1), r.node))]
      · intro e _ he
        have : sub (childPath p e.1) ≠ .error .unfinished := by
          intro hh
          apply he
          simp only [hh]
          rfl
        rw [hs _ this]
      · intro hh
        rw [hh] at h
        exact h rfl
    · simp only [if_neg hr]
  | link c =>
    simp only [known] at h ⊢
    by_cases hm : m = .ignore
    · simp only [if_pos hm]
    · simp only [if_neg hm] at h ⊢
      cases hc : confined c p with
      | ub => rfl
      | val b =>
        cases b with
        | false => rfl
        | true =>
          rw [hc] at h
          simp only at h ⊢
          by_cases hco : m = .completely
          · simp only [if_pos hco] at h ⊢
            exact hs _ h
          · simp only [if_neg hco] at h ⊢
            cases hu : nonUpwards c with
            | ub => rfl
            | val b =>
              rw [hu] at h
              cases b with
              | true => rfl
              | false => exact hs _ h

theorem resolve_more {k : Nat} {p : Str} (h : resolve root m readable k p ≠ .error .unfinished) :
    resolve root m readable (k + 1) p = resolve root m readable k p := by
  induction k generalizing p with
  | zero => exact absurd rfl h
  | succ k ih =>
    unfold resolve
    unfold resolve at h
    cases hg : getObject root p with
    | some n =>
      rw [hg] at h
      exact known_more (fun p => ih) h
    | none =>
      rw [hg] at h
      by_cases hm : m = .ignore
      · simp only [if_pos hm]
      · simp only [if_neg hm] at h ⊢
        by_cases hp : parentPath p = p
        · simp only [if_pos hp]
        · simp only [if_neg hp] at h ⊢
          have hr : resolve root m readable k (toNormalPath (parentPath p)) ≠ .error .unfinished := by
            intro hh
            rw [hh] at h
            exact h rfl
          rw [ih hr]
          cases hv : resolve root m readable k (toNormalPath (parentPath p)) with
          | error e => rfl
          | ok rp =>
            rw [hv] at h
            simp only [bind, Except.bind] at h ⊢
            cases hn : rp.node with
            | file => rfl
            | link => rfl
            | tree es =>
              rw [hn] at h
              simp only at h ⊢
              cases he : entryIn es (filename p) with
              | none => rfl
              | some n =>
                rw [he] at h
                exact known_more (fun p => ih) h

theorem resolve_add {k : Nat} {p : Str} (h : resolve root m readable k p ≠ .error .unfinished) (j : Nat) :
    resolve root m readable (k + j) p = resolve root m readable k p := by
  induction j with
  | zero => rfl
  | succ j ih =>
    rw [← Nat.add_assoc, resolve_more (by rw [ih]; exact h), ih]

/-! ## Ignored links -/

/-- The tree without its links. -/
inductive Stripped : Node → Node → Prop where
  | file (id : Str) (x : Bool) : Stripped (.file id x) (.file id x)
  | tree {es : List (Str × Node)} {f : Str → Node} (h : ∀ e ∈ es, e.2.isLink = false → Stripped e.2 (f e.1)) :
      Stripped (.tree es) (.tree ((es.filter fun e => !e.2.isLink).map fun e => (e.1, f e.1)))

mutual

theorem val_stripped (hp : Proper root) {p : Str} {r : Resolved} : Val root .ignore readable p r → ∀ l n, Good l → p = render l →
    root.find l = some n → Stripped n r.node
  | .source h hk => by
    intro l n hl hpl hn
    have h' := h
    rw [hpl, getObject_render hl, hn] at h'
    exact known_stripped hp hk l n hl hpl hn (Option.some.inj h')
  | .missing _ h _ _ _ _ _ => absurd rfl h
  | .known hq hk => (asked_stripped hq).elim

theorem known_stripped (hp : Proper root) {p : Str} {n' : Node} {r : Resolved} : Known root .ignore readable p n' r →
    ∀ l n, Good l → p = render l → root.find l = some n → n = n' → Stripped n r.node
  | .file => by
    intro l n hl hpl hn hs
    rw [hs]
    exact .file _ _
  | .tree (es := es) (f := f) _ hf => by
    intro l n hl hpl hn hs
    rw [hs] at hn ⊢
    have hpr := proper_find hp hn
    have h1 : ∀ e ∈ es, GoodName e.1 := fun e he => (proper_entry hpr he).1
    have h2 : (es.map Prod.fst).Nodup := by
      cases hpr with
      | tree _ h _ => exact h
    have hw : wanted .ignore es = es.filter fun e => !e.2.isLink := by
      unfold wanted
      refine List.filter_congr fun e _ => ?_
      cases e.2.isLink <;> rfl
    have hs : ∀ e ∈ es, e.2.isLink = false → Stripped e.2 (f e.1).node := fun e he hb =>
      val_stripped hp (hf e (by rw [hw]; exact List.mem_filter.2 ⟨he, by simp [hb]⟩)) (l ++ [e.1]) e.2 (hl.snoc (h1 e he))
        (by rw [hpl]; exact childPath_render hl (h1 e he)) (by rw [find_snoc, hn]; exact mem_entryIn h2 he)
    rw [hw, hpl, rebuilt_good hl fun e he => h1 e (List.mem_filter.1 he).1]
    exact .tree (f := fun x => (f x).node) hs
  | .follow h _ _ _ => absurd rfl h

theorem asked_stripped {p : Str} {n : Node} : Asked root .ignore readable p n → False
  | .top _ _ h _ _ _ _ => h rfl
  | .deeper h _ => asked_stripped h

end

theorem entryIn_strip {es : List (Str × Node)} {f : Str → Node} {x : Str} (hd : (es.map Prod.fst).Nodup) :
    entryIn ((es.filter fun e => !e.2.isLink).map fun e => (e.1, f e.1)) x =
      (entryIn es x).bind fun n => if n.isLink = true then none else some (f x) := by
  induction es with
  | nil => rfl
  | cons e es ih =>
    obtain ⟨y, n⟩ := e
    simp only [List.map_cons, List.nodup_cons] at hd
    by_cases hy : y = x
    · subst hy
      cases hb : n.isLink with
      | true =>
        rw [List.filter_cons_of_neg (by simp [hb]), ih hd.2]
        have hn : entryIn es y = none := by
          cases hh : entryIn es y with
          | none => rfl
          | some k => exact absurd (entryIn_isSome.1 (by rw [hh]; rfl)) hd.1
        rw [hn]
        simp [entryIn, hb]
      | false =>
        rw [List.filter_cons_of_pos (by simp [hb])]
        simp [entryIn, hb]
    · by_cases hb : n.isLink = true
      · rw [List.filter_cons_of_neg (by simp [hb]), ih hd.2]
        simp [entryIn, hy]
      · rw [List.filter_cons_of_pos (by simp [hb])]
        simp [entryIn, hy, ih hd.2]

theorem stripped_link {n k : Node} (h : Stripped n k) : k.isLink = false := by
  cases h <;> rfl

theorem stripped_find {n k : Node} (hp : Proper n) (h : Stripped n k) (p : List Str) :
    (∀ v, k.find p = some v → ∃ w, n.find p = some w ∧ Stripped w v) ∧
      ∀ w, n.find p = some w → w.isLink = false → ∃ v, k.find p = some v ∧ Stripped w v := by
  induction p generalizing n k with
  | nil => exact ⟨fun v hv => ⟨n, rfl, by cases hv; exact h⟩, fun w hw _ => ⟨k, rfl, by cases hw; exact h⟩⟩
  | cons x p ih =>
    cases h with
    | file => simp [Node.find, Node.entry]
    | @tree es f h =>
      have hd : (es.map Prod.fst).Nodup := by
        cases hp with
        | tree _ h _ => exact h
      simp only [Node.find, Node.entry, entryIn_strip hd]
      cases he : entryIn es x with
      | none => simp
      | some n0 =>
        have hm := entryIn_mem he
        by_cases hb : n0.isLink = true
        · cases n0 with
          | link c =>
            simp only [Option.bind_some, if_pos hb]
            refine ⟨by simp, fun w hw hl => ?_⟩
            cases p with
            | nil => cases hw; cases hl
            | cons y p => simp [Node.find, Node.entry] at hw
          | file => cases hb
          | tree => cases hb
        · simp only [Option.bind_some, if_neg hb]
          exact ih (proper_entry hp hm).2 (h _ hm (by simpa using hb))

end Verif.Symlinks
