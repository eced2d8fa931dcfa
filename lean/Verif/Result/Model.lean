import Verif.Expr.Hash

/-!
# Model of the serialisation of target results

Source: `src/buildtool/build_engine/expression/target_result.cpp`.
-/

namespace Verif.Result

open Verif.Art Verif.Dig Verif.Expr

variable {N : Type}

/-- JSON of the target cache. -/
abbrev J (N : Type) := Json (N ⊕ Nat)

/-- Replacements of artifacts, with different keys.  Simplification: keys are compared as descriptions,
the code compares their identifiers (see C62). -/
abbrev Repl := List (Desc × ObjectInfo)

/-- target_result.hpp:30-34.  The artifacts and runfiles of a target are always maps of artifacts. -/
structure TargetResult (N : Type) where
  artifacts : List (Str × Desc)
  runfiles : List (Str × Desc)
  provides : Value N

/-- target_result.cpp:48: `replacements.find`. -/
def replacement (repl : Repl) (d : Desc) : Option ObjectInfo :=
  match repl with
  | [] => none
  | (d', i) :: t => if d = d' then some i else replacement t d

/-- target_result.cpp:41-59 (`SerializeArtifactDescription`); `none`: exception. -/
def serArt (repl : Repl) (d : Desc) : Option (J N) :=
  if repl.isEmpty then some d.toJson
  else if d.isKnown then some d.toJson
  else (replacement repl d).bind fun info => some (Desc.known info.digest info.type none).toJson

/-- target_result.cpp:76-80: what is collected.  Lists are in reverse order of insertion. -/
structure Tab (N : Type) where
  nodes : List (Str × J N)
  arts : List Str
  abs : List Str
  results : List Str

/-- target_result.cpp:182. -/
def Tab.put (s : Tab N) (id : Str) (j : J N) : Tab N :=
  { s with nodes := OMap.insertList (fun _ n => n) id j s.nodes }

/-- target_result.cpp:175. -/
def Tab.addArt (s : Tab N) (id : Str) : Tab N := { s with arts := id :: s.arts }

/-- target_result.cpp:119. -/
def Tab.addNode (s : Tab N) (id : Str) : Tab N := { s with abs := id :: s.abs }

/-- target_result.cpp:150. -/
def Tab.addResult (s : Tab N) (id : Str) : Tab N := { s with results := id :: s.results }

/-- target_result.cpp:85. -/
def Tab.has (s : Tab N) (id : Str) : Bool := (assoc id s.nodes).isSome

variable (h : Hashing N)

/-- A reference to a value. -/
def ref (v : Value N) : J N := .str (identifier h v)

mutual
/-- target_result.cpp:75-185 (`SerializeExpression`); the returned identifier is `identifier h v`.
`none`: exception. -/
def ser (repl : Repl) (v : Value N) (s : Tab N) : Option (Tab N) :=
  if s.has (identifier h v) then some s
  else
    match v with
    | .map m => (serItems repl m s).bind fun s =>
        some (s.put (identifier h (.map m)) (.obj (m.map fun kv => (kv.1, ref h kv.2))))
    | .list l => (serList repl l s).bind fun s =>
        some (s.put (identifier h (.list l)) (.arr (l.map (ref h))))
    | .valueNode v => (ser repl v (s.addNode (identifier h (.valueNode v)))).bind fun s =>
        some (s.put (identifier h (.valueNode v)) (valueNodeJson (ref h v)))
    | .absNode ty a b => (ser repl a (s.addNode (identifier h (.absNode ty a b)))).bind fun s =>
        (ser repl b s).bind fun s =>
          some (s.put (identifier h (.absNode ty a b)) (absNodeJson ty (ref h a) (ref h b)))
    | .result a p r => (ser repl a (s.addResult (identifier h (.result a p r)))).bind fun s =>
        (ser repl r s).bind fun s => (ser repl p s).bind fun s =>
          some (s.put (identifier h (.result a p r)) (resultJson (ref h a) (ref h p) (ref h r)))
    | .art d => (serArt repl d).bind fun j =>
        some ((s.addArt (identifier h (.art d))).put (identifier h (.art d)) j)
    | v => some (s.put (identifier h v) (json h true v))
/-- target_result.cpp:106-114. -/
def serList (repl : Repl) (l : List (Value N)) (s : Tab N) : Option (Tab N) :=
  match l with
  | [] => some s
  | v :: t => (ser repl v s).bind fun s => serList repl t s
/-- target_result.cpp:91-99. -/
def serItems (repl : Repl) (l : List (Str × Value N)) (s : Tab N) : Option (Tab N) :=
  match l with
  | [] => some s
  | (_, v) :: t => (ser repl v s).bind fun s => serItems repl t s
end

/-- target_result.cpp:335-350 (`SerializeArtifactMap`). -/
def serArtMap (repl : Repl) : List (Str × Desc) → Option (List (Str × J N))
  | [] => some []
  | (k, d) :: t => (serArt repl d).bind fun j => (serArtMap repl t).bind fun t => some ((k, j) :: t)

/-- target_result.cpp:372-393 (`SerializeProvidesMap`). -/
def serProvides (repl : Repl) (v : Value N) : Option (J N) :=
  (ser h repl v ⟨[], [], [], []⟩).bind fun s => some (.obj [
    ("entry".toList, ref h v),
    ("nodes".toList, .obj s.nodes),
    ("provided_artifacts".toList, .arr (s.arts.reverse.map .str)),
    ("provided_nodes".toList, .arr (s.abs.reverse.map .str)),
    ("provided_results".toList, .arr (s.results.reverse.map .str))])

/-- target_result.cpp:420-448 (`SerializeTargetResultWithReplacement`, `ReplaceNonKnownAndToJson`). -/
def TargetResult.toJson (repl : Repl) (r : TargetResult N) : Option (J N) :=
  (serArtMap repl r.artifacts).bind fun a => (serArtMap repl r.runfiles).bind fun f =>
    (serProvides h repl r.provides).bind fun p => some (.obj [
      ("artifacts".toList, .obj a), ("provides".toList, p), ("runfiles".toList, .obj f)])

/-! ## Reading -/

/-- Outcome of reading: a value, a null pointer, an exception, undefined behaviour (access to a missing key
of a constant JSON object; also a node made with a null pointer), or recursion deeper than the fuel. -/
inductive Out (α : Type) where
  | ok (a : α)
  | null
  | error
  | ub
  | more

variable {α β : Type}

/-- Sequencing: everything but a value is propagated. -/
def Out.bind (o : Out α) (f : α → Out β) : Out β :=
  match o with
  | .ok a => f a
  | .null => .null
  | .error => .error
  | .ub => .ub
  | .more => .more

/-- Null pointers that are put into a node. -/
def Out.inNode (o : Out α) : Out α :=
  match o with
  | .null => .ub
  | o => o

/-- `json[key]` of a constant JSON value. -/
def at? (j : J N) (key : String) : Out (J N) :=
  match j with
  | .obj m => match assoc key.toList m with
    | some v => .ok v
    | none => .ub
  | _ => .error

/-- `json.get<std::string>()`. -/
def str? (j : J N) : Out Str :=
  match j with
  | .str s => .ok s
  | _ => .error

/-- Values read so far. -/
abbrev Sofar (N : Type) := List (Str × Value N)

/-- How to read numbers. -/
structure Casts (N : Type) where
  toNat : N → Nat
  ofNat : Nat → N

/-- target_result.cpp:187-194: the parameters that stay the same. -/
structure Src (N : Type) where
  type : HashType
  casts : Casts N
  nodes : J N
  arts : List Str
  abs : List Str
  results : List Str

/-- target_result.cpp:309-321. -/
def deList (de : J N → Sofar N → Out (Value N × Sofar N)) : List (J N) → Sofar N →
    Out (List (Value N) × Sofar N)
  | [], f => .ok ([], f)
  | j :: t, f => (str? j).bind fun s => (de (.str s) f).bind fun vf =>
      (deList de t vf.2).bind fun tf => .ok (vf.1 :: tf.1, tf.2)

/-- target_result.cpp:288-300. -/
def deItems (de : J N → Sofar N → Out (Value N × Sofar N)) : List (Str × J N) → Sofar N →
    Out (List (Str × Value N) × Sofar N)
  | [], f => .ok ([], f)
  | (k, j) :: t, f => (str? j).bind fun s => (de (.str s) f).bind fun vf =>
      (deItems de t vf.2).bind fun tf => .ok ((k, vf.1) :: tf.1, tf.2)

/-- target_result.cpp:206-214. -/
def deArt (S : Src N) (id : Str) (j : J N) (f : Sofar N) : Out (Value N × Sofar N) :=
  match Desc.fromJson S.type S.casts.toNat j with
  | some d => .ok (.art d, (id, .art d) :: f)
  | none => .null

/-- target_result.cpp:215-254. -/
def deNode (de : J N → Sofar N → Out (Value N × Sofar N)) (id : Str) (j : J N) (f : Sofar N) :
    Out (Value N × Sofar N) :=
  (at? j "type").bind fun ty =>
    match ty with
    | .str s =>
      if s = "ABSTRACT_NODE".toList then
        (at? j "node_type").bind fun nt => (str? nt).bind fun nt =>
          (at? j "target_fields").bind fun tj => (de tj f).inNode.bind fun tf =>
            (at? j "string_fields").bind fun sj => (de sj tf.2).inNode.bind fun sf =>
              .ok (.absNode nt sf.1 tf.1, (id, .absNode nt sf.1 tf.1) :: sf.2)
      else if s = "VALUE_NODE".toList then
        (at? j "result").bind fun vj => (de vj f).inNode.bind fun vf =>
          .ok (.valueNode vf.1, (id, .valueNode vf.1) :: vf.2)
      else .null
    | _ => .null

/-- target_result.cpp:255-285.  Simplification: after a null pointer the code still reads the other
parts, which may additionally fail. -/
def deResult (de : J N → Sofar N → Out (Value N × Sofar N)) (j : J N) (f : Sofar N) :
    Out (Value N × Sofar N) :=
  (at? j "artifact_stage").bind fun aj => (de aj f).bind fun af =>
    (at? j "runfiles").bind fun rj => (de rj af.2).bind fun rf =>
      (at? j "provides").bind fun pj => (de pj rf.2).bind fun pf =>
        .ok (.result af.1 pf.1 rf.1, pf.2)

/-- target_result.cpp:327-329, for JSON that is no object and no array. -/
def deAtom (S : Src N) (id : Str) (j : J N) (f : Sofar N) : Out (Value N × Sofar N) :=
  match j with
  | .null => .ok (.none, (id, .none) :: f)
  | .bool b => .ok (.bool b, (id, .bool b) :: f)
  | .num (.inl n) => .ok (.num n, (id, .num n) :: f)
  | .num (.inr n) => .ok (.num (S.casts.ofNat n), (id, .num (S.casts.ofNat n)) :: f)
  | .str s => .ok (.str s, (id, .str s) :: f)
  | .arr _ => .error
  | .obj _ => .error

/-- `nodes.at(id)`. -/
def node? (nodes : J N) (id : Str) : Out (J N) :=
  match nodes with
  | .obj m => match assoc id m with
    | some v => .ok v
    | none => .error
  | _ => .error

/-- target_result.cpp:187-330 (`DeserializeExpression`), with fuel for the recursion. -/
def de (S : Src N) : Nat → J N → Sofar N → Out (Value N × Sofar N)
  | 0, _, _ => .more
  | n + 1, entry, f =>
    (str? entry).bind fun id =>
      match assoc id f with
      | some v => .ok (v, f)
      | none =>
        (node? S.nodes id).bind fun j =>
          match j with
          | .obj m =>
            if id ∈ S.arts then deArt S id j f
            else if id ∈ S.abs then deNode (de S n) id j f
            else if id ∈ S.results then deResult (de S n) j f
            else (deItems (de S n) m f).bind fun mf => .ok (.map mf.1, (id, .map mf.1) :: mf.2)
          | .arr l =>
            (deList (de S n) l f).bind fun lf => .ok (.list lf.1, (id, .list lf.1) :: lf.2)
          | j => deAtom S id j f

/-- target_result.cpp:352-367 (`DeserializeArtifactMap`). -/
def deArtMap (t : HashType) (c : Casts N) : List (Str × J N) → Out (List (Str × Desc))
  | [] => .ok []
  | (k, j) :: l =>
    match Desc.fromJson t c.toNat j with
    | some d => (deArtMap t c l).bind fun l => .ok ((k, d) :: l)
    | none => .null

/-- target_result.cpp:352-367, for any JSON. -/
def deArtifacts (t : HashType) (c : Casts N) (j : J N) : Out (List (Str × Desc)) :=
  match j with
  | .obj m => deArtMap t c m
  | _ => .null

/-- target_result.cpp:397-401. -/
def strings : List (J N) → Out (List Str)
  | [] => .ok []
  | j :: t => (str? j).bind fun s => (strings t).bind fun t => .ok (s :: t)

/-- target_result.cpp:395-402 (`JsonSet`): iterating over JSON that is no container gives the value
itself, except for `null`. -/
def jsonSet (j : J N) : Out (List Str) :=
  match j with
  | .arr l => strings l
  | .obj m => strings (m.map Prod.snd)
  | .null => .ok []
  | j => strings [j]

/-- target_result.cpp:404-415 (`DeserializeProvidesMap`).  The parts are read in the order in which they
are written here, in the code the order is not specified. -/
def deProvides (t : HashType) (c : Casts N) (n : Nat) (j : J N) : Out (Value N) :=
  (at? j "entry").bind fun entry => (at? j "nodes").bind fun nodes =>
    (at? j "provided_artifacts").bind fun a => (jsonSet a).bind fun a =>
      (at? j "provided_nodes").bind fun b => (jsonSet b).bind fun b =>
        (at? j "provided_results").bind fun r => (jsonSet r).bind fun r =>
          (de ⟨t, c, nodes, a, b, r⟩ n entry []).bind fun vf => .ok vf.1

/-- target_result.cpp:450-466 (`FromJson`).  Null pointers and exceptions mean that there is no result. -/
def TargetResult.fromJson (t : HashType) (c : Casts N) (n : Nat) (j : J N) : Out (TargetResult N) :=
  (at? j "artifacts").bind fun a => (deArtifacts t c a).bind fun a =>
    (at? j "runfiles").bind fun r => (deArtifacts t c r).bind fun r =>
      (at? j "provides").bind fun p => (deProvides t c n p).bind fun p => .ok ⟨a, r, p⟩

end Verif.Result
