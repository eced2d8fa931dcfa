import Verif.Path.Model
import Verif.Util.Split

/-!
# Model of how settings of git are found for a URL

Source: `src/other_tools/utils/curl_url_handle.cpp`, `src/other_tools/git_operations/git_config_settings.cpp`.

The parser of URLs (`curl_url_set`, `curl_url_get` of libcurl) is a parameter; so are the parsers of values of libgit2
(`git_config_parse_bool`, `git_config_parse_path`).  The entries of the git configuration are given as the iterator of libgit2 gives
them.  Simplifications: errors of `curl_url_get` other than the component being absent, and exceptions, do not occur; host names have
no characters special in regular expressions, except for dots (`ParseConfigKey`).

An entry without value (`[http "https://example.com"] sslVerify`) has a null pointer as value in libgit2, from which a string is
formed (git_config_settings.cpp:169, 295): `Got.undefined`.  Undefined behaviour that is not modelled: the order
`ConfigKeyMatchCompare` of a `std::map` is not irreflexive, which the standard requires; the model has what a search tree does when
an entry is inserted (and rebalancing does not change the order of the entries).  `NoproxyPatternMatches` forms an iterator before
the first entry (curl_url_handle.cpp:154); the model takes it as different from all others.  The regular expressions for the names of
the entries (git_config_settings.cpp:130, 263) are not anchored at the end; that they select other entries is not modelled.
-/

namespace Verif.Net

open Verif.Path

/-- What libcurl gives for a URL (curl_url_handle.cpp:343-451, 556-693): the components; `defaultPort` is the port, or else the
default port of the scheme (`CURLU_DEFAULT_PORT`). -/
structure Parts where
  scheme : Option Str
  user : Option Str
  host : Option Str
  port : Option Str
  defaultPort : Option Str
  path : Str
  query : Option Str
  fragment : Option Str
  deriving DecidableEq

/-- `std::getline` until it fails (curl_url_handle.cpp:44-53, 78-87, 129-132): a separator at the end is not followed by an entry. -/
def tokens (c : Char) (s : Str) : List Str :=
  if (splitAt c s).getLast? = some [] then (splitAt c s).dropLast else splitAt c s

/-- curl_url_handle.cpp:59-66: entries are equal, or `*`. -/
def labelsMatch : List Str → List Str → Bool
  | k :: ks, u :: us => if k ≠ u ∧ k ≠ ['*'] then false else labelsMatch ks us
  | _, _ => true

/-- curl_url_handle.cpp:36-67 (`HostsMatch`). -/
def hostsMatch (key url : Str) : Bool :=
  if (tokens '.' key).length ≠ (tokens '.' url).length then false
  else labelsMatch (tokens '.' key) (tokens '.' url)

/-- curl_url_handle.cpp:92-99. -/
def prefixMatch : List Str → List Str → Bool
  | k :: ks, u :: us => if k ≠ u then false else prefixMatch ks us
  | _, _ => true

/-- curl_url_handle.cpp:69-102 (`PathMatchSize`). -/
def pathMatchSize (key url : Str) : Option Nat :=
  if (tokens '/' key).length > (tokens '/' url).length then none
  else if prefixMatch (tokens '/' key) (tokens '/' url) then some key.length else none

/-- curl_url_handle.cpp:409-451, 653-700: path, query, and fragment, with a slash at the end. -/
def Parts.fullPath (p : Parts) : Str :=
  append (append ['/'] p.path ++ (p.query.map ('?' :: ·)).getD [] ++ (p.fragment.map ('#' :: ·)).getD []) []

/-- curl_url_handle.hpp:41-49 (`GitConfigKey`). -/
structure Key where
  scheme : Option Str
  user : Option Str
  host : Option Str
  port : Option Str
  path : Str
  deriving DecidableEq

/-- curl_url_handle.cpp:333-461 (`GetConfigStructFromKey`); `none`: not parsable. -/
def keyOf (curl : Str → Option Parts) (key : Str) : Option Key :=
  (curl key).map fun p => ⟨p.scheme, p.user, p.host, p.defaultPort, p.fullPath⟩

/-- curl_url_handle.cpp:497-509: the regular expression for the host, with dots that stand for dots and asterisks. -/
def fits : Str → Str → Bool
  | [], [] => true
  | h :: hs, c :: cs => (h = c || (h = '.' && c = '*')) && fits hs cs
  | _, _ => false

/-- `std::sregex_iterator` (curl_url_handle.cpp:514-522): the occurrences, from left to right, without overlap; what is before, the
occurrence, and what is after it.  (The host is not empty.) -/
def occurrences (host : Str) : Nat → Str → Str → List (Str × Str × Str)
  | _, _, [] => []
  | skip + 1, pre, c :: s => occurrences host skip (pre ++ [c]) s
  | 0, pre, c :: s =>
    if fits host ((c :: s).take host.length) then
      (pre, (c :: s).take host.length, (c :: s).drop host.length) :: occurrences host (host.length - 1) (pre ++ [c]) s
    else occurrences host 0 (pre ++ [c]) s

/-- Outcome of an operation that may report an error. -/
inductive Got (X : Type) where
  | undefined
  | error
  | ok (x : X)
  deriving DecidableEq

/-- curl_url_handle.cpp:463-540 (`ParseConfigKey`). -/
def parseKey (curl : Str → Option Parts) (key : Str) : Got (Option Key) :=
  if '*' ∉ key then .ok (keyOf curl key)
  else
    match curl (key.map fun c => if c = '*' then '.' else c) with
    | none => .ok none
    | some p =>
      match p.host with
      | none => .error
      | some host =>
        .ok ((occurrences host 0 [] key).findSome? fun o =>
          (keyOf curl (o.1 ++ host ++ o.2.2)).map fun k => { k with host := some o.2.1 })

/-- curl_url_handle.hpp:53-68 (`ConfigKeyMatchDegree`), for a match. -/
structure Degree where
  hostLen : Nat
  pathLen : Nat
  user : Bool
  deriving DecidableEq

/-- curl_url_handle.cpp:556-712 (`MatchConfigKey`), once the key is parsed; `none`: no match. -/
def matchParsed (url : Parts) (k : Key) : Got (Option Degree) :=
  if k.scheme ≠ url.scheme then .ok none
  else if k.user.isSome ∧ url.user = none then .error
  else if k.user.isSome ∧ k.user ≠ url.user then .ok none
  else if k.host ≠ url.host ∧ ¬ (∃ h ∈ k.host, ∃ u ∈ url.host, hostsMatch h u) then .ok none
  else if url.defaultPort = none then .error
  else if k.port ≠ url.defaultPort then .ok none
  else
    match pathMatchSize k.path url.fullPath with
    | none => .ok none
    | some n => .ok (some ⟨(k.host.map List.length).getD 0, n, k.user.isSome⟩)

/-- curl_url_handle.cpp:542-719 (`MatchConfigKey`). -/
def matchKey (curl : Str → Option Parts) (url : Parts) (key : Str) : Got (Option Degree) :=
  match parseKey curl key with
  | .undefined => .undefined
  | .error => .error
  | .ok none => .ok none
  | .ok (some k) => matchParsed url k

/-! ## Settings -/

/-- git_config_settings.cpp:51-66 (`ConfigKeyMatchCompare`). -/
def before (l r : Degree) : Bool :=
  if l.hostLen ≠ r.hostLen then decide (l.hostLen > r.hostLen)
  else if l.pathLen ≠ r.pathLen then decide (l.pathLen > r.pathLen)
  else if l.user ≠ r.user then l.user
  else true

/-- `std::map::emplace` with `ConfigKeyMatchCompare` (git_config_settings.cpp:167-170, 294-296): the position is before the first
entry that does not come before the new one. -/
def emplace (d : Degree) (v : Str) : List (Degree × Str) → List (Degree × Str)
  | [] => [(d, v)]
  | e :: l => if before d e.1 then (d, v) :: e :: l else e :: emplace d v l

/-- git_config_settings.cpp:146-172, 274-298: the matching entries, best first. -/
def matches_ (curl : Str → Option Parts) (url : Parts) : List (Str × Option Str) → List (Degree × Str) → Got (List (Degree × Str))
  | [], acc => .ok acc
  | (key, value) :: l, acc =>
    match matchKey curl url key with
    | .undefined => .undefined
    | .error => .error
    | .ok none => matches_ curl url l acc
    | .ok (some d) =>
      match value with
      | none => .undefined
      | some v => matches_ curl url l (emplace d v acc)

/-- The git configuration (git_config_settings.cpp:129-172, 186-191, 262-298, 336-338): entries
`http.<url>.sslVerify`, `http.sslVerify`, `http.<url>.proxy`, `http.proxy`. -/
structure Config where
  ssl : List (Str × Option Str)
  sslGeneric : Option Str
  proxy : List (Str × Option Str)
  proxyGeneric : Option Str

/-- What is taken from libcurl and libgit2 (git_config_settings.cpp:72-93, 117, 176, 188, 302). -/
structure Libs where
  /-- `CurlURLHandle::Create` (curl_url_handle.cpp:165-189) -/
  curl : Str → Option Parts
  /-- `GetProxyAsPermissiveUrl` (git_config_settings.cpp:72-93) -/
  permissive : Str → Option Str
  /-- `git_config_parse_bool`, `git_config_get_bool` -/
  bool? : Str → Option Bool
  /-- `git_config_parse_path` -/
  path? : Str → Option Str

/-- git_config_settings.cpp:97-200 (`GetSSLCallback`): whether certificates are verified. -/
def verifyCertificates (L : Libs) (env : Str → Option Str) (cfg : Option Config) (url : Str) : Got Bool :=
  if (env "GIT_SSL_NO_VERIFY".toList).isSome then .ok false
  else
    match cfg with
    | none => .ok true
    | some cfg =>
      let generic := ((cfg.sslGeneric.bind L.bool?).getD true)
      match L.curl url with
      | none => .ok generic
      | some u =>
        match matches_ L.curl u cfg.ssl [] with
        | .undefined => .undefined
        | .error => .error
        | .ok [] => .ok generic
        | .ok (m :: _) => .ok ((L.bool? m.2).getD generic)

/-! ## Proxies -/

/-- curl_url_handle.hpp:70-77 (`NoproxyPattern`). -/
structure Pattern where
  labels : List Str
  port : Option Str
  deriving DecidableEq

/-- curl_url_handle.cpp:108-134 (`ParseNoproxyPattern`). -/
def parsePattern (s : Str) : Pattern :=
  let host := s.takeWhile (· ≠ ':')
  let port := if host.length ≠ s.length then some (s.drop (host.length + 1)) else none
  let host := if host.head? = some '.' then host.tail else host
  ⟨tokens '.' host, port⟩

/-- curl_url_handle.cpp:151-160: comparison in reverse order. -/
def reverseMatch : List Str → List Str → Bool
  | t :: ts, u :: us => if t ≠ u then false else reverseMatch ts us
  | _, _ => true

/-- curl_url_handle.cpp:136-161 (`NoproxyPatternMatches`). -/
def patternMatches (test target : Pattern) : Bool :=
  if test.port.isSome ∧ test.port ≠ target.port then false
  else if test.labels = [] ∨ target.labels = [] ∨ test.labels.length > target.labels.length then false
  else reverseMatch test.labels.reverse target.labels.reverse

/-- curl_url_handle.cpp:724-739: the patterns, separated by spaces and commas. -/
def patterns (s : Str) : List Str :=
  ((tokens ' ' s).flatMap fun t => tokens ',' t).filter fun t => !t.isEmpty

/-- curl_url_handle.cpp:721-796 (`NoproxyStringMatches`). -/
def noProxy (url : Parts) (s : Str) : Got Bool :=
  match url.host with
  | none => .error
  | some h =>
    let target := parsePattern (h ++ (url.port.map (':' :: ·)).getD [])
    .ok ((patterns s).any fun p => p = ['*'] || patternMatches (parsePattern p) target)

/-- git_config_settings.cpp:368-441: the variables for the scheme of the URL, in order. -/
def proxyVariables (scheme : Option Str) : List Str :=
  (if scheme = some "https".toList then ["https_proxy".toList, "HTTPS_PROXY".toList]
    else if scheme = some "http".toList then ["http_proxy".toList] else []) ++ ["all_proxy".toList, "ALL_PROXY".toList]

/-- git_config_settings.cpp:334-445: what is not specific to the URL. -/
def genericProxy (L : Libs) (env : Str → Option Str) (cfg : Config) (u : Parts) : Option Str :=
  match cfg.proxyGeneric with
  | some (c :: p) => L.permissive (c :: p)
  | _ =>
    match (proxyVariables u.scheme).findSome? env with
    | some p => L.permissive p
    | none => none

/-- git_config_settings.cpp:220-253: whether a variable excludes the URL. -/
def excluded (env : Str → Option Str) (u : Parts) (var : String) : Got Bool :=
  match env var.toList with
  | none => .ok false
  | some s => noProxy u s

/-- git_config_settings.cpp:299-445: the proxy, from the matching entries. -/
def chooseProxy (L : Libs) (env : Str → Option Str) (cfg : Config) (u : Parts) (ms : List (Degree × Str)) : Option Str :=
  if ms.any fun m => L.path? m.2 = some [] then none
  else
    match ms with
    | [] => genericProxy L env cfg u
    | m :: _ =>
      match L.path? m.2 with
      | some p => L.permissive p
      | none => genericProxy L env cfg u

/-- git_config_settings.cpp:202-452 (`GetProxySettings`); `ok none`: no proxy is used. -/
def proxySettings (L : Libs) (env : Str → Option Str) (cfg : Option Config) (url : Str) : Got (Option Str) :=
  match cfg with
  | none => .ok none
  | some cfg =>
    match L.curl url with
    | none => .ok none
    | some u =>
      match excluded env u "no_proxy" with
      | .undefined => .undefined
      | .error => .error
      | .ok true => .ok none
      | .ok false =>
        match excluded env u "NO_PROXY" with
        | .undefined => .undefined
        | .error => .error
        | .ok true => .ok none
        | .ok false =>
          match matches_ L.curl u cfg.proxy [] with
          | .undefined => .undefined
          | .error => .error
          | .ok ms => .ok (chooseProxy L env cfg u ms)

end Verif.Net
