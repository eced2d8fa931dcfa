import Verif.Net.UrlProps

/-!
# Settings of git for a URL: examples and violations
-/

namespace Verif.Net.UrlExample

open Verif.Path

/-- A URL of a server, with the given user, host, and path. -/
def parts (user : Option String) (host path : String) : Parts :=
  ⟨some "https".toList, user.map String.toList, some host.toList, none, some "443".toList, path.toList, none, none⟩

/-- What the parser gives for the URLs in the examples. -/
def table : List (Str × Parts) :=
  [("https://git.example.com/org/repo".toList, parts none "git.example.com" "/org/repo"),
   ("https://example.com".toList, parts none "example.com" "/"),
   ("https://git.example.com".toList, parts none "git.example.com" "/"),
   ("https://git.example.com/org".toList, parts none "git.example.com" "/org"),
   ("https://me@other.net".toList, parts (some "me") "other.net" "/"),
   ("https://..example.com".toList, parts none "..example.com" "/")]

def curl (s : Str) : Option Parts := (table.find? fun e => e.1 = s).map (·.2)

def L : Libs where
  curl := curl
  permissive s := if s.isEmpty then none else some s
  bool? s := if s = "true".toList then some true else if s = "false".toList then some false else none
  path? s := some s

def env0 : Str → Option Str := fun _ => none

def url : Str := "https://git.example.com/org/repo".toList
def u : Parts := parts none "git.example.com" "/org/repo"

/-! Hosts, paths, and keys. -/

example : hostsMatch "*.example.com".toList "git.example.com".toList = true ∧
    hostsMatch "*.example.com".toList "a.git.example.com".toList = false := by decide

example : List.Forall₂ (fun k u : Str => k = ['*'] ∨ k = u) [['*'], "b".toList] ["a".toList, "b".toList] :=
  .cons (Or.inl rfl) (.cons (Or.inr rfl) .nil)

example : pathMatchSize "/org/".toList "/org/repo/".toList = some 5 ∧ pathMatchSize "/or/".toList "/org/repo/".toList = none := by decide

example : parseKey curl "https://git.example.com/org".toList =
      .ok (some ⟨some "https".toList, none, some "git.example.com".toList, some "443".toList, "/org/".toList⟩) ∧
    matchKey curl u "https://git.example.com/org".toList = .ok (some ⟨15, 5, false⟩) := by decide +kernel

/-- A parser for keys with wildcards. -/
def curl2 (s : Str) : Option Parts :=
  if s = "https://..example.com".toList then some (parts none "..example.com" "/") else none

example : parseKey curl2 "https://*.example.com".toList =
    .ok (some ⟨some "https".toList, none, some "*.example.com".toList, some "443".toList, "/".toList⟩) := by decide +kernel

/-- The hypotheses of `C107_wildcard` can be met. -/
example : parseKey curl2 ("https://".toList ++ "*.example.com".toList ++ []) =
    .ok (some { (⟨some "https".toList, none, some "..example.com".toList, some "443".toList, "/".toList⟩ : Key) with
      host := some "*.example.com".toList }) :=
  C107_wildcard curl2 "https://".toList "*.example.com".toList [] "..example.com".toList (parts none "..example.com" "/") _
    (by decide) (by decide +kernel) rfl (by decide) (fits_iff.1 (by decide))
    (fun b c e hc h => by
      have h := fits_iff.2 h
      have hl : b.length ≤ 8 := by
        have := congrArg List.length e
        simp at this
        omega
      have hb : b = "https://".toList.take b.length := by rw [e, List.take_left]
      have hcd : c = "https://".toList.drop b.length := by rw [e, List.drop_left]
      generalize b.length = n at hl hb hcd
      subst hcd
      have : n = 0 ∨ n = 1 ∨ n = 2 ∨ n = 3 ∨ n = 4 ∨ n = 5 ∨ n = 6 ∨ n = 7 ∨ n = 8 := by omega
      rcases this with rfl | rfl | rfl | rfl | rfl | rfl | rfl | rfl | rfl
      all_goals first | exact absurd h (by decide +kernel) | exact hc rfl)
    (by decide +kernel)

/-! Certificates: the best match decides. -/

def c1 : Config where
  ssl := [("https://git.example.com/org".toList, some "false".toList), ("https://git.example.com".toList, some "true".toList)]
  sslGeneric := some "true".toList
  proxy := []
  proxyGeneric := none

example : verifyCertificates L env0 (some c1) url = .ok false ∧
    verifyCertificates L env0 (some c1) "https://example.com".toList = .ok true := by decide +kernel

example : matches_ curl u c1.ssl [] = .ok [(⟨15, 5, false⟩, "false".toList), (⟨15, 1, false⟩, "true".toList)] := by decide +kernel

/-- Of equally good entries, the latest wins. -/
example : verifyCertificates L env0 (some { c1 with ssl := c1.ssl ++ [("https://git.example.com/org".toList, some "true".toList)] }) url =
    .ok true := by decide +kernel

/-! Proxies. -/

example : patterns "a.com, .b.com:80 ,c".toList = ["a.com".toList, ".b.com:80".toList, "c".toList] := by decide +kernel

example : noProxy u "foo.net,.example.com".toList = .ok true ∧ noProxy u "ample.com".toList = .ok false ∧
    noProxy u "example.com:443".toList = .ok false := by decide +kernel

def c2 : Config where
  ssl := []
  sslGeneric := none
  proxy := [("https://git.example.com".toList, some "p1".toList), ("https://git.example.com/org".toList, some "p2".toList)]
  proxyGeneric := some "p3".toList

example : proxySettings L env0 (some c2) url = .ok (some "p2".toList) ∧
    proxySettings L env0 (some c2) "https://example.com".toList = .ok (some "p3".toList) := by decide +kernel

/-- The hypotheses of `C107_proxy_partial` can be met. -/
example : ¬ (Excluded env0 u "git.example.com".toList "no_proxy" ∨ Excluded env0 u "git.example.com".toList "NO_PROXY") ∧
    Fine L.curl u c2.proxy ∧ IsBest (hits L.curl u c2.proxy) (⟨15, 5, false⟩, "p2".toList) ∧
    ∀ n ∈ hits L.curl u c2.proxy, L.path? n.2 = some [] → n = (⟨15, 5, false⟩, "p2".toList) := by
  have hh : hits L.curl u c2.proxy = [(⟨15, 1, false⟩, "p1".toList), (⟨15, 5, false⟩, "p2".toList)] := by decide +kernel
  refine ⟨by rintro (⟨s, h, _⟩ | ⟨s, h, _⟩) <;> simp [env0] at h, ?_, ?_, ?_⟩
  · exact matches_ok _ _ _ [] [(⟨15, 5, false⟩, "p2".toList), (⟨15, 1, false⟩, "p1".toList)] (by decide +kernel)
  · rw [hh]
    exact ⟨[(⟨15, 1, false⟩, "p1".toList)], [], rfl, by decide, by simp⟩
  · rw [hh]; decide

/-! ## Violations -/

/-- **V97**: an entry for a user at another server makes the settings for a URL without user fail; according to git, the entry does
not match. -/
theorem C107_violation_user :
    ∃ c : Config, c.ssl = [("https://me@other.net".toList, some "false".toList)] ∧
      verifyCertificates L env0 (some c) url = .error ∧ verifyCertificates L env0 (some { c with ssl := [] }) url = .ok true :=
  ⟨⟨[("https://me@other.net".toList, some "false".toList)], none, [], none⟩, rfl, by decide +kernel, by decide +kernel⟩

/-- **V98**: an entry with an empty value disables the proxy, though a better match (the only one git would use) has a proxy. -/
theorem C107_violation_empty :
    ∃ c : Config, IsBest (hits L.curl u c.proxy) (⟨15, 5, false⟩, "p2".toList) ∧ L.path? "p2".toList = some "p2".toList ∧
      proxySettings L env0 (some c) url = .ok none := by
  refine ⟨⟨[], none, [("https://git.example.com".toList, some []), ("https://git.example.com/org".toList, some "p2".toList)], none⟩,
    ?_, rfl, by decide +kernel⟩
  have hh : hits L.curl u [("https://git.example.com".toList, some []), ("https://git.example.com/org".toList, some "p2".toList)] =
      [(⟨15, 1, false⟩, []), (⟨15, 5, false⟩, "p2".toList)] := by decide +kernel
  simp only [hh]
  exact ⟨[(⟨15, 1, false⟩, [])], [], rfl, by decide, by simp⟩

/-- **V99**: an entry without value (which is `true`, according to git) is undefined behaviour. -/
theorem C107_violation_value :
    ∃ c : Config, c.ssl = [("https://git.example.com".toList, none)] ∧ verifyCertificates L env0 (some c) url = .undefined :=
  ⟨⟨[("https://git.example.com".toList, none)], none, [], none⟩, rfl, by decide +kernel⟩

end Verif.Net.UrlExample
