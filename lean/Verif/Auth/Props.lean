import Verif.Auth.Model

/-!
# C120: TLS is used exactly if asked for, with the files given

Independent of the order in which `Build` looks at the files: `Valid` says which sets of files are right.
-/

namespace Verif.Auth

variable {P : Type} {read : P → Option Str} {f : Files P}

/-- The text an option stands for: that of its file, nothing if not given. -/
def content (read : P → Option Str) (f : Files P) (p : Part) : Str :=
  ((f.get p).bind read).getD []

/-- The files given can be read, that of the authority is not empty, and certificates come with keys. -/
structure Valid (read : P → Option Str) (f : Files P) : Prop where
  readable : ∀ p x, f.get p = some x → (read x).isSome
  ca : f.ca.isSome → content read f .ca ≠ []
  client : content read f .clientCert = [] ↔ content read f .clientKey = []
  server : content read f .serverCert = [] ↔ content read f .serverKey = []

/-- What `load` gives. -/
theorem load_ok {p : Part} {o : Option P} {c : Str} {g : Bool} :
    load read p o = .ok (c, g) ↔
      (∀ x, o = some x → (read x).isSome) ∧ (o.bind read).getD [] = c ∧ o.isSome = g := by
  cases o with
  | none => simp [load]
  | some x =>
    cases h : read x with
    | none => simp [load, h]
    | some d => simp [load, h]

/-- What `loadCa` gives. -/
theorem loadCa_ok {o : Option P} {c : Str} {g : Bool} :
    loadCa read o = .ok (c, g) ↔
      (∀ x, o = some x → (read x).isSome) ∧ (o.isSome → (o.bind read).getD [] ≠ []) ∧
        (o.bind read).getD [] = c ∧ o.isSome = g := by
  cases o with
  | none => simp [loadCa, load, bind, Except.bind]
  | some x =>
    cases h : read x with
    | none => simp [loadCa, load, h, bind, Except.bind]
    | some d =>
      cases d with
      | nil => simp [loadCa, load, h, bind, Except.bind]
      | cons a d => simp [loadCa, load, h, bind, Except.bind]

/-- What `loadPair` gives. -/
theorem loadPair_ok {pc pk : Part} {oc ok : Option P} {c k : Str} {g : Bool} :
    loadPair read pc pk oc ok = .ok (c, k, g) ↔
      (∀ x, oc = some x → (read x).isSome) ∧ (∀ x, ok = some x → (read x).isSome) ∧
        ((oc.bind read).getD [] = [] ↔ (ok.bind read).getD [] = []) ∧
        (oc.bind read).getD [] = c ∧ (ok.bind read).getD [] = k ∧ (oc.isSome || ok.isSome) = g := by
  unfold loadPair
  cases h₁ : load read pc oc with
  | error e =>
    have : ¬ ∀ x, oc = some x → (read x).isSome := fun h => by
      rw [(load_ok (read := read) (p := pc) (o := oc)).mpr ⟨h, rfl, rfl⟩] at h₁
      cases h₁
    simp only [bind, Except.bind, reduceCtorEq, false_iff]
    exact fun h => this h.1
  | ok r =>
    obtain ⟨c', gc⟩ := r
    obtain ⟨r₁, rfl, rfl⟩ := load_ok.mp h₁
    cases h₂ : load read pk ok with
    | error e =>
      have : ¬ ∀ x, ok = some x → (read x).isSome := fun h => by
        rw [(load_ok (read := read) (p := pk) (o := ok)).mpr ⟨h, rfl, rfl⟩] at h₂
        cases h₂
      simp only [bind, Except.bind, reduceCtorEq, false_iff]
      exact fun h => this h.2.1
    | ok r =>
      obtain ⟨k', gk⟩ := r
      obtain ⟨r₂, rfl, rfl⟩ := load_ok.mp h₂
      simp only [bind, Except.bind]
      generalize (Option.bind oc read).getD [] = a
      generalize (Option.bind ok read).getD [] = b
      cases a <;> cases b <;> simp <;> exact ⟨fun h => ⟨r₁, r₂, h⟩, fun h => h.2.2⟩

/-- C120: there is no error exactly if the files are right. Then TLS is used exactly if any option is given,
with the contents of the files given, and empty texts for the others. -/
theorem C120_build (a : Option Tls) :
    build read f = .ok a ↔
      Valid read f ∧
        ((a = none ∧ ∀ p, f.get p = none) ∨
          ∃ t, a = some t ∧ (∃ p, (f.get p).isSome) ∧ ∀ p, t.get p = content read f p) := by
  unfold build
  cases h₁ : loadCa read f.ca with
  | error e =>
    simp only [bind, Except.bind, reduceCtorEq, false_iff]
    rintro ⟨v, -⟩
    rw [(loadCa_ok (o := f.ca)).mpr ⟨v.readable .ca, v.ca, rfl, rfl⟩] at h₁
    cases h₁
  | ok r₁ =>
  obtain ⟨ca, g₁⟩ := r₁
  obtain ⟨a₁, b₁, c₁, d₁⟩ := loadCa_ok.mp h₁
  cases h₂ : loadPair read .clientCert .clientKey f.clientCert f.clientKey with
  | error e =>
    simp only [bind, Except.bind, reduceCtorEq, false_iff]
    rintro ⟨v, -⟩
    rw [(loadPair_ok (oc := f.clientCert) (ok := f.clientKey)).mpr ⟨v.readable .clientCert, v.readable .clientKey, v.client, rfl, rfl, rfl⟩] at h₂
    cases h₂
  | ok r₂ =>
  obtain ⟨cc, ck, g₂⟩ := r₂
  obtain ⟨a₂, a₂', b₂, c₂, c₂', d₂⟩ := loadPair_ok.mp h₂
  cases h₃ : loadPair read .serverCert .serverKey f.serverCert f.serverKey with
  | error e =>
    simp only [bind, Except.bind, reduceCtorEq, false_iff]
    rintro ⟨v, -⟩
    rw [(loadPair_ok (oc := f.serverCert) (ok := f.serverKey)).mpr ⟨v.readable .serverCert, v.readable .serverKey, v.server, rfl, rfl, rfl⟩] at h₃
    cases h₃
  | ok r₃ =>
  obtain ⟨sc, sk, g₃⟩ := r₃
  obtain ⟨a₃, a₃', b₃, c₃, c₃', d₃⟩ := loadPair_ok.mp h₃
  have v : Valid read f := ⟨fun p => by cases p <;> assumption, b₁, b₂, b₃⟩
  have hc : ∀ p, (Tls.mk ca cc ck sc sk).get p = content read f p := fun p => by
    cases p <;> exact Eq.symm (by assumption)
  have hg : (g₁ || g₂ || g₃) = true ↔ ∃ p, (f.get p).isSome := by
    subst d₁ d₂ d₃
    constructor
    · intro h
      simp only [Bool.or_eq_true] at h
      rcases h with (h | h | h) | h | h
      exacts [⟨.ca, h⟩, ⟨.clientCert, h⟩, ⟨.clientKey, h⟩, ⟨.serverCert, h⟩, ⟨.serverKey, h⟩]
    · rintro ⟨p, h⟩
      cases p <;> simp only [Files.get] at h <;> simp [h]
  simp only [bind, Except.bind]
  by_cases hx : (g₁ || g₂ || g₃) = true
  · rw [if_pos hx]
    obtain ⟨p, hp⟩ := hg.mp hx
    constructor
    · intro h
      cases h
      exact ⟨v, .inr ⟨_, rfl, ⟨p, hp⟩, hc⟩⟩
    · rintro ⟨-, ⟨-, h⟩ | ⟨t, rfl, -, ht⟩⟩
      · rw [h p] at hp
        cases hp
      · have e : t = ⟨ca, cc, ck, sc, sk⟩ := by
          have q : ∀ p, t.get p = (Tls.mk ca cc ck sc sk).get p := fun p => (ht p).trans (hc p).symm
          cases t
          have q₁ := q .ca
          have q₂ := q .clientCert
          have q₃ := q .clientKey
          have q₄ := q .serverCert
          have q₅ := q .serverKey
          simp only [Tls.get] at q₁ q₂ q₃ q₄ q₅
          subst q₁ q₂ q₃ q₄ q₅
          rfl
        rw [e]
  · rw [if_neg hx]
    have hn : ∀ p, f.get p = none := fun p => by
      cases h : f.get p with
      | none => rfl
      | some x => exact (hx (hg.mpr ⟨p, by rw [h]; rfl⟩)).elim
    constructor
    · intro h
      cases h
      exact ⟨v, .inl ⟨rfl, hn⟩⟩
    · rintro ⟨-, ⟨rfl, -⟩ | ⟨t, rfl, ⟨p, hp⟩, -⟩⟩
      · rfl
      · rw [hn p] at hp
        cases hp

/-- What an error says about the files. -/
def Error.Right (read : P → Option Str) (f : Files P) : Error → Prop
  | .unreadable p => ∃ x, f.get p = some x ∧ read x = none
  | .missing p => content read f p = []

/-- Errors of `load` are right. -/
theorem load_error {p : Part} {e : Error} (h : load read p (f.get p) = .error e) : e.Right read f := by
  cases hx : f.get p with
  | none =>
    rw [hx] at h
    cases h
  | some x =>
    rw [hx] at h
    cases hr : read x with
    | none =>
      simp only [load, hr] at h
      cases h
      exact ⟨x, hx, hr⟩
    | some c =>
      simp only [load, hr] at h
      cases h

/-- Errors of `loadPair` are right. -/
theorem loadPair_error {pc pk : Part} {e : Error}
    (h : loadPair read pc pk (f.get pc) (f.get pk) = .error e) : e.Right read f := by
  unfold loadPair at h
  cases h₁ : load read pc (f.get pc) with
  | error e' =>
    rw [h₁] at h
    cases h
    exact load_error h₁
  | ok r =>
    obtain ⟨c, gc⟩ := r
    rw [h₁] at h
    cases h₂ : load read pk (f.get pk) with
    | error e' =>
      rw [h₂] at h
      cases h
      exact load_error h₂
    | ok r =>
      obtain ⟨k, gk⟩ := r
      rw [h₂] at h
      obtain ⟨-, ec, -⟩ := load_ok.mp h₁
      obtain ⟨-, ek, -⟩ := load_ok.mp h₂
      simp only [bind, Except.bind] at h
      cases c <;> cases k <;> simp at h
      · subst h
        exact ec
      · subst h
        exact ek

/-- C120: an error names a file that cannot be read, or an option that is missing or has an empty file. -/
theorem C120_error {e : Error} (h : build read f = .error e) : e.Right read f := by
  unfold build at h
  cases h₁ : loadCa read f.ca with
  | error e' =>
    rw [h₁] at h
    cases h
    unfold loadCa at h₁
    cases h₀ : load read .ca f.ca with
    | error e' =>
      rw [h₀] at h₁
      cases h₁
      exact load_error (p := .ca) h₀
    | ok r =>
      obtain ⟨c, g⟩ := r
      rw [h₀] at h₁
      obtain ⟨-, ec, -⟩ := load_ok.mp h₀
      simp only [bind, Except.bind] at h₁
      cases c <;> cases g <;> simp at h₁
      subst h₁
      exact ec
  | ok r₁ =>
    rw [h₁] at h
    cases h₂ : loadPair read .clientCert .clientKey f.clientCert f.clientKey with
    | error e' =>
      simp only [bind, Except.bind, h₂] at h
      cases h
      exact loadPair_error (pc := .clientCert) (pk := .clientKey) h₂
    | ok r₂ =>
      cases h₃ : loadPair read .serverCert .serverKey f.serverCert f.serverKey with
      | error e' =>
        simp only [bind, Except.bind, h₂, h₃] at h
        cases h
        exact loadPair_error (pc := .serverCert) (pk := .serverKey) h₃
      | ok r₃ =>
        simp only [bind, Except.bind, h₂, h₃] at h
        split at h <;> cases h

/-- C120: no connection is insecure if an option for TLS is given: either there is an error, or both channels
and services use TLS. -/
theorem C120_secure {a : Option Tls} (h : build read f = .ok a) :
    ((channelCredentials a).isSome ↔ ∃ p, (f.get p).isSome) ∧
      ((serverCredentials a).isSome ↔ ∃ p, (f.get p).isSome) := by
  obtain ⟨-, ⟨rfl, hn⟩ | ⟨t, rfl, hp, -⟩⟩ := (C120_build a).mp h
  · have : ¬ ∃ p, (f.get p).isSome := by
      rintro ⟨p, hp⟩
      rw [hn p] at hp
      cases hp
    simp [channelCredentials, serverCredentials, this]
  · simp [channelCredentials, serverCredentials, hp]

/-- C120: a client has the authority given as its root (empty if none is given: then gRPC has defaults), and
offers the certificate given. -/
theorem C120_client {a : Option Tls} {c : SslCredentials} (h : build read f = .ok a)
    (hc : channelCredentials a = some c) :
    c = ⟨content read f .ca, content read f .clientKey, content read f .clientCert⟩ := by
  obtain ⟨-, ⟨rfl, -⟩ | ⟨t, rfl, -, ht⟩⟩ := (C120_build a).mp h
  · cases hc
  · cases hc
    rw [← ht, ← ht, ← ht]
    rfl

/-- C120: a service has the authority given, and one pair of key and certificate, the ones given. -/
theorem C120_server {a : Option Tls} {s : SslServerCredentials} (h : build read f = .ok a)
    (hs : serverCredentials a = some s) :
    s.rootCerts = content read f .ca ∧
      s.keyCertPairs = [(content read f .serverKey, content read f .serverCert)] := by
  obtain ⟨-, ⟨rfl, -⟩ | ⟨t, rfl, -, ht⟩⟩ := (C120_build a).mp h
  · cases hs
  · cases hs
    rw [← ht, ← ht, ← ht]
    exact ⟨rfl, rfl⟩

/-- C120, as far as it holds: the certificate and the key of a client are both offered, or none of them. -/
theorem C120_pair_partial {a : Option Tls} {c : SslCredentials} (h : build read f = .ok a)
    (hc : channelCredentials a = some c) : c.certChain = [] ↔ c.privateKey = [] := by
  rw [C120_client h hc]
  exact ((C120_build a).mp h).1.client

/-- C120: if the file of a certificate of a client is given and not empty, it is offered together with
its key. -/
theorem C120_offered {a : Option Tls} {x : P} {cert : Str} (h : build read f = .ok a)
    (hx : f.clientCert = some x) (hr : read x = some cert) (hn : cert ≠ []) :
    ∃ y key, f.clientKey = some y ∧ read y = some key ∧ key ≠ [] ∧
      channelCredentials a = some ⟨content read f .ca, key, cert⟩ := by
  have e : content read f .clientCert = cert := by simp [content, Files.get, hx, hr]
  have v := ((C120_build a).mp h).1
  have hk : content read f .clientKey ≠ [] := fun k => hn (e ▸ v.client.mpr k)
  cases hy : f.clientKey with
  | none => exact (hk (by simp [content, Files.get, hy])).elim
  | some y =>
    cases hz : read y with
    | none => exact (hk (by simp [content, Files.get, hy, hz])).elim
    | some key =>
      have e' : content read f .clientKey = key := by simp [content, Files.get, hy, hz]
      refine ⟨y, key, rfl, hz, e' ▸ hk, ?_⟩
      cases hc : channelCredentials a with
      | none =>
        have := (C120_secure h).1.mpr ⟨.clientCert, by simp [Files.get, hx]⟩
        rw [hc] at this
        cases this
      | some c => rw [C120_client h hc, e, e']

/-- setup_utils.cpp:329-332: the files just-mr looks at. -/
def Files.ofJustMr (f : Files P) : Files P := { f with serverCert := none, serverKey := none }

/-- C120: just-mr, for which there are no options for services, accepts the options just accepts, and uses the
same credentials for channels. -/
theorem C120_just_mr {a : Option Tls} (h : build read f = .ok a) :
    ∃ a', build read f.ofJustMr = .ok a' ∧
      ((f.ca.isSome ∨ f.clientCert.isSome ∨ f.clientKey.isSome) →
        channelCredentials a' = channelCredentials a) := by
  have v := ((C120_build a).mp h).1
  have v' : Valid read f.ofJustMr :=
    ⟨fun p x hx => match p, hx with
      | .ca, hx => v.readable .ca x hx
      | .clientCert, hx => v.readable .clientCert x hx
      | .clientKey, hx => v.readable .clientKey x hx, v.ca, v.client, Iff.rfl⟩
  by_cases hp : ∃ p, (f.ofJustMr.get p).isSome
  · have hb := (C120_build (some ⟨content read f .ca, content read f .clientCert, content read f .clientKey,
      [], []⟩)).mpr ⟨v', .inr ⟨_, rfl, hp, fun p => by cases p <;> rfl⟩⟩
    refine ⟨_, hb, fun _ => ?_⟩
    have hq : ∃ p, (f.get p).isSome := by
      obtain ⟨p, hp⟩ := hp
      cases p
      · exact ⟨.ca, hp⟩
      · exact ⟨.clientCert, hp⟩
      · exact ⟨.clientKey, hp⟩
      · cases hp
      · cases hp
    cases hc : channelCredentials a with
    | none =>
      have := (C120_secure h).1.mpr hq
      rw [hc] at this
      cases this
    | some c =>
      rw [C120_client h hc]
      rfl
  · have hn : ∀ p, f.ofJustMr.get p = none := fun p => by
      cases e : f.ofJustMr.get p with
      | none => rfl
      | some x => exact (hp ⟨p, by rw [e]; rfl⟩).elim
    refine ⟨none, (C120_build none).mpr ⟨v', .inl ⟨rfl, hn⟩⟩, fun hx => ?_⟩
    rcases hx with hx | hx | hx
    exacts [(hp ⟨.ca, hx⟩).elim, (hp ⟨.clientCert, hx⟩).elim, (hp ⟨.clientKey, hx⟩).elim]

/-! ## Violations -/

/-- Violation V136: a service for which mTLS is enabled, as documented, by the options for the authority, the
certificate, and the key, serves every client, also one with a certificate of another authority or none at
all. -/
theorem C120_violation_any_client (signed : Str → Str → Bool) {a : Option Tls} {s : SslServerCredentials}
    (hs : serverCredentials a = some s) (cert : Option Str) : serves signed s cert = true := by
  cases a with
  | none => cases hs
  | some t =>
    cases hs
    rfl

/-- What is documented, with a server that asks for certificates: only clients of the authority are
served. -/
theorem C120_client_access_if_required (signed : Str → Str → Bool) {s : SslServerCredentials}
    (hr : s.request = .requireAndVerify) (cert : Option Str) :
    serves signed s cert = true ↔ ∃ c, cert = some c ∧ signed s.rootCerts c = true := by
  cases cert <;> simp [serves, hr]

/-- A file system for examples: `e` is empty, `x` is missing. -/
def exampleRead (p : Char) : Option Str :=
  if p = 'x' then none else if p = 'e' then some [] else some [p, p]

/-- V136 for a service as in the documentation; no certificate is signed by its authority. -/
theorem C120_violation_mtls :
    ∃ (a : Option Tls) (s : SslServerCredentials),
      build exampleRead ⟨some 'a', none, none, some 's', some 'k'⟩ = .ok a ∧
      serverCredentials a = some s ∧ s.rootCerts = ['a', 'a'] ∧ s.keyCertPairs = [(['k', 'k'], ['s', 's'])] ∧
      serves (fun _ _ => false) s none = true :=
  ⟨_, _, rfl, rfl, rfl, rfl, rfl⟩

/-- Violation V137: with empty files for the certificate and the key of the client there is no error, and
nothing is offered. -/
theorem C120_violation_empty :
    ∃ c, build exampleRead ⟨some 'a', some 'e', some 'e', none, none⟩ = .ok (some c) ∧
      channelCredentials (some c) = some ⟨['a', 'a'], [], []⟩ :=
  ⟨_, rfl, rfl⟩

/-- Violation V138: the certificate and the key of a client are accepted without the authority, contrary to
the manual page; the client then trusts the authorities gRPC comes with. -/
theorem C120_violation_no_ca :
    ∃ c, build exampleRead ⟨none, some 'c', some 'k', none, none⟩ = .ok (some c) ∧
      channelCredentials (some c) = some ⟨[], ['k', 'k'], ['c', 'c']⟩ :=
  ⟨_, rfl, rfl⟩

/-! ## Examples -/

/-- All five files. -/
example : build exampleRead ⟨some 'a', some 'c', some 'd', some 's', some 'k'⟩ =
    .ok (some ⟨['a', 'a'], ['c', 'c'], ['d', 'd'], ['s', 's'], ['k', 'k']⟩) := rfl

/-- With all five files, just and just-mr use the same credentials. -/
example : ∃ a', build exampleRead (Files.ofJustMr ⟨some 'a', some 'c', some 'd', some 's', some 'k'⟩) = .ok a' ∧
    channelCredentials a' = some ⟨['a', 'a'], ['d', 'd'], ['c', 'c']⟩ := ⟨_, rfl, rfl⟩

/-- No option. -/
example : build exampleRead ⟨none, none, none, none, none⟩ = .ok none := rfl

/-- A missing file, an empty one, a key without certificate, and a certificate without key. -/
example : build exampleRead ⟨some 'x', some 'c', none, none, none⟩ = .error (.unreadable .ca) := rfl
example : build exampleRead ⟨some 'e', some 'c', none, none, none⟩ = .error (.missing .ca) := rfl
example : build exampleRead ⟨some 'a', none, some 'd', none, some 'k'⟩ = .error (.missing .clientCert) := rfl
example : build exampleRead ⟨some 'a', none, none, some 's', some 'e'⟩ = .error (.missing .serverKey) := rfl

/-- The hypotheses of C120_offered are met. -/
example : ∃ y key, some 'd' = some y ∧ exampleRead y = some key ∧ key ≠ [] ∧
    channelCredentials (some ⟨['a', 'a'], ['c', 'c'], ['d', 'd'], [], []⟩) =
      some ⟨['a', 'a'], key, ['c', 'c']⟩ :=
  C120_offered (read := exampleRead) (f := ⟨some 'a', some 'c', some 'd', none, none⟩) rfl rfl rfl (by simp)

/-- The sets of files that are right are not all of them. -/
example : ¬ Valid exampleRead ⟨some 'e', none, none, none, none⟩ := fun v => v.ca rfl rfl

end Verif.Auth
