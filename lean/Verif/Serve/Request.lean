import Verif.Serve.Roots
import Verif.TargetCache.Model
import Verif.Names.Model

/-!
# The serve endpoint: reading a request for a target

Model of how the properties, the dispatch list, and the target-cache key of a request are turned into a configured
target (src/buildtool/serve_api/serve_service/target.cpp:108-211, 344-532, src/buildtool/common/remote/port.hpp,
src/buildtool/common/remote/remote_common.hpp).

A call of `std::terminate` is the outcome `crash`.  Reading JSON from text is a parameter.
-/

namespace Verif.Serve

open Verif Verif.Expr Verif.Result Verif.TC Verif.Names

variable {N : Type}

/-- Status codes of gRPC used here. -/
inductive Code where
  | invalidArgument
  | internal
  | notFound
  | failedPrecondition
  | unavailable
  deriving DecidableEq

/-- A step of handling a request: go on, stop with a status, or the process is terminated. -/
inductive Step (α : Type) where
  | go (a : α)
  | stop (c : Code)
  | crash
  deriving DecidableEq

namespace Step

/-- Continue with the value. -/
def bind {α β : Type} (r : Step α) (f : α → Step β) : Step β :=
  match r with
  | .go a => f a
  | .stop c => .stop c
  | .crash => .crash

/-- Stop with a status if there is no value. -/
def orStop {α : Type} (c : Code) : Option α → Step α
  | some a => .go a
  | none => .stop c

end Step

/-! ## Addresses and dispatch lists -/

/-- Outcome of `std::stoi`: a number, or one of the two exceptions. -/
inductive Stoi where
  | value (i : Int)
  | invalid
  | range
  deriving DecidableEq

/-- The number read from digits, after the sign. -/
def stoiDigits (negative : Bool) (s : Str) : Stoi :=
  match s with
  | [] => .invalid
  | c :: _ =>
    if c.isDigit then
      if negative then if leadingDigits 0 s ≤ 2 ^ 31 then .value (-(leadingDigits 0 s : Int)) else .range
      else if leadingDigits 0 s < 2 ^ 31 then .value (leadingDigits 0 s) else .range
    else .invalid

/-- `std::stoi` (base 10, `int` of 32 bits): as `std::stoul`, but signed. -/
def stoi (s : Str) : Stoi :=
  match s.dropWhile isSpace with
  | [] => .invalid
  | c :: t => if c = '-' then stoiDigits true t else if c = '+' then stoiDigits false t else stoiDigits false (c :: t)

/-- port.hpp:33-58 (`ParsePort`): only `std::invalid_argument` is handled; as the function is `noexcept`, the process
is terminated by the other exception. -/
def parsePort (s : Str) : Step (Option Nat) :=
  match stoi s with
  | .value i => .go (if 0 ≤ i ∧ i ≤ 65535 then some i.toNat else none)
  | .invalid => .go none
  | .range => .crash

/-- The text up to the first colon, and the text after it if there is one; `std::getline` fails at the end of the
text. -/
def getline (s : Str) : Option (Str × Str) :=
  if s = [] then none else some (s.takeWhile (· ≠ ':'), (s.dropWhile (· ≠ ':')).drop 1)

/-- remote_common.hpp:46-59 (`ParseAddress`). -/
def parseAddress (s : Str) : Step (Option Address) :=
  match getline s with
  | none => .go none
  | some (host, rest) =>
    match getline rest with
    | none => .go none
    | some (port, _) => (parsePort port).bind fun p =>
      match p with
      | some n => .go (if host = [] then none else some ⟨host, n⟩)
      | none => .go none

/-- remote_common.hpp:104-112: properties, which have to be strings. -/
def readProps : List (Str × J N) → Option Properties
  | [] => some []
  | (k, .str v) :: t => (readProps t).map fun l => (k, v) :: l
  | _ => none

/-- remote_common.hpp:91-126: one entry of the list. -/
def parseEndpoint (j : J N) : Step (Option (Properties × Address)) :=
  match j with
  | .arr [.obj props, .str a] =>
    match readProps props with
    | none => .go none
    | some p => (parseAddress a).bind fun r => .go (r.map fun a => (p, a))
  | _ => .go none

/-- remote_common.hpp:91: entries in order, until the first error. -/
def parseEndpoints : List (J N) → Step (Option (List (Properties × Address)))
  | [] => .go (some [])
  | j :: t => (parseEndpoint j).bind fun r =>
    match r with
    | none => .go none
    | some e => (parseEndpoints t).bind fun r => .go (r.map fun l => e :: l)

/-- remote_common.hpp:73-137 (`ParseDispatch`), for the JSON value of the text. -/
def parseDispatch (j : J N) : Step (Option (List (Properties × Address))) :=
  match j with
  | .arr l => parseEndpoints l
  | _ => .go none

/-- What the client sends for its dispatch list (src/buildtool/serve_api/remote/target_client.cpp:103-113). -/
def dispatchJson (d : List (Properties × Address)) : J N := .arr (d.map fun e => .arr [propertiesJson e.1, .str e.2.text])

/-- target.cpp:179-211 (`CreateRemoteExecutionConfig`), 287-304: the shard of the target cache a request is for.  The
address is that of the endpoint; properties are inserted one after another. -/
def requestShard (h : Hashing N) (address : Option Address) (props : List (Str × Str)) (dispatch : J N) : Step Str :=
  (parseDispatch dispatch).bind fun r =>
    match r with
    | none => .stop .failedPrecondition
    | some d => .go (describe h address (props.foldl (fun m p => OMap.insertList (fun _ new => new) p.1 p.2 m) []) d)

/-! ## Target-cache keys -/

mutual
/-- src/buildtool/build_engine/expression/expression.cpp:171-206 (`FromJson`); all numbers become floating-point
numbers. -/
def fromJson (ofNat : Nat → N) : J N → Value N
  | .null => .none
  | .bool b => .bool b
  | .num (.inl n) => .num n
  | .num (.inr n) => .num (ofNat n)
  | .str s => .str s
  | .arr l => .list (fromList ofNat l)
  | .obj m => .map (fromItems ofNat m)
/-- expression.cpp:186-194. -/
def fromList (ofNat : Nat → N) : List (J N) → List (Value N)
  | [] => []
  | j :: t => fromJson ofNat j :: fromList ofNat t
/-- expression.cpp:195-201. -/
def fromItems (ofNat : Nat → N) : List (Str × J N) → List (Str × Value N)
  | [] => []
  | (k, j) :: t => (k, fromJson ofNat j) :: fromItems ofNat t
end

/-- What is asked for: the hash of the repository key, the target, the value given as configuration. -/
structure Asked (N : Type) where
  repoKey : Str
  target : Named
  config : Value N

/-- target.cpp:394-422, 470-516: the value at a key of the description; `missing` if there is none, `wrong` if it is
no string. -/
def stringAt (missing wrong : Code) (key : Str) (m : List (Str × J N)) : Step Str :=
  match assoc key m with
  | none => .stop missing
  | some (.str s) => .go s
  | some _ => .stop wrong

/-- The parsed repository key, and the rest still to be read (target.cpp:344-422): the description has to be a map
with the three keys. -/
def readRepoKey (j : J N) : Step (List (Str × J N) × Str) :=
  match j with
  | .obj m =>
    (Step.orStop .notFound (assoc "repo_key".toList m)).bind fun _ =>
    (Step.orStop .notFound (assoc "target_name".toList m)).bind fun _ =>
    (Step.orStop .notFound (assoc "effective_config".toList m)).bind fun _ =>
    (stringAt .notFound .notFound "repo_key".toList m).bind fun r => .go (m, r)
  | _ => .stop .notFound

/-- target.cpp:470-532: target name and configuration; `parseJson` is the JSON parser, `bind` gives the global name of a
repository named in the target.  That the configuration is a map is not checked (src/buildtool/build_engine/expression/configuration.hpp:37-40:
only in debug builds). -/
def readTarget (parseJson : Str → Option (J N)) (ofNat : Nat → N) (bind : Str → Str → Option Str)
    (m : List (Str × J N)) : Step (Named × Value N) :=
  (stringAt .failedPrecondition .failedPrecondition "target_name".toList m).bind fun t =>
  (Step.orStop .failedPrecondition (parseJson t)).bind fun tj =>
  (stringAt .failedPrecondition .failedPrecondition "effective_config".toList m).bind fun c =>
  (Step.orStop .failedPrecondition (parseJson c)).bind fun cj =>
  (Step.orStop .failedPrecondition (Names.parse bind tj ⟨"0".toList, [], [], .target⟩)).bind fun n =>
    .go (n, fromJson ofNat cj)

/-- target.cpp:344-532 for the JSON value of the blob of the key; setting up the repositories in between is
`determineRoots`. -/
def readKey (parseJson : Str → Option (J N)) (ofNat : Nat → N) (bind : Str → Str → Option Str) (j : J N) :
    Step (Asked N) :=
  (readRepoKey j).bind fun r =>
  (readTarget parseJson ofNat bind r.1).bind fun t => .go ⟨r.2, t.1, t.2⟩

/-- configuration.hpp:104-118 (`Prune`), as used by export targets (src/buildtool/build_engine/target_map/export.cpp:139):
values of variables, null if there is none.  If the configuration is no map, the exception is not handled by any caller
in the worker thread, so that the process is terminated. -/
def prune (vars : List Str) (config : Value N) : Step (List (Str × Value N)) :=
  match vars, config with
  | [], _ => .go []
  | _, .map m => .go (vars.foldl (fun acc k =>
      OMap.insertList (fun old _ => old) k ((assoc k m).getD .none) acc) [])
  | _, _ => .crash

end Verif.Serve
