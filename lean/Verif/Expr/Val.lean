import Verif.Util.Json
import Verif.Names.Model

/-!
# Values of the expression language

Source: `src/buildtool/build_engine/expression/expression.{hpp,cpp}`, `target_result.hpp`,
`target_node.{hpp,cpp}`.
-/

namespace Verif.Expr

open Verif.Names (Entity)

/-- expression.hpp:257-267: the alternatives of an expression.  `N` are numbers, `A` artifact
descriptions.  Maps are given by their sorted items (by C01).  A result (target_result.hpp:30-34)
consists of artifacts, provides map and runfiles; a node (target_node.hpp:25-32) is a value or
abstract. -/
inductive Val (N A : Type) where
  | none
  | bool (b : Bool)
  | num (n : N)
  | str (s : Str)
  | name (e : Entity)
  | art (a : A)
  | result (stage provides runfiles : Val N A)
  | valueNode (v : Val N A)
  | absNode (type : Str) (strings targets : Val N A)
  | list (l : List (Val N A))
  | map (l : List (Str × Val N A))

variable {N A : Type}

/-- expression.hpp:91 (`IsNone`). -/
def Val.isNone : Val N A → Bool
  | .none => true
  | _ => false

/-- expression.hpp:113-118 (`String`). -/
def Val.str? : Val N A → Option Str
  | .str s => some s
  | _ => Option.none

/-- expression.hpp:135-138 (`List`). -/
def Val.list? : Val N A → Option (List (Val N A))
  | .list l => some l
  | _ => Option.none

/-- expression.hpp:139-142 (`Map`). -/
def Val.map? : Val N A → Option (List (Str × Val N A))
  | .map m => some m
  | _ => Option.none

/-- expression.hpp:111 (`Number`). -/
def Val.num? : Val N A → Option N
  | .num n => some n
  | _ => Option.none

mutual
/-- expression.cpp:127-152 (`ComputeIsCacheable`), target_result.hpp:34, target_node.hpp:41 and
target_node.cpp:19-22 (`Abstract::IsCacheable`). -/
def Val.cacheable : Val N A → Bool
  | .name _ => false
  | .result _ p _ => p.cacheable
  | .valueNode v => v.cacheable
  | .absNode _ _ t => t.cacheable
  | .list l => Val.cacheableList l
  | .map m => Val.cacheableItems m
  | _ => true
/-- expression.cpp:138-144. -/
def Val.cacheableList : List (Val N A) → Bool
  | [] => true
  | v :: t => v.cacheable && Val.cacheableList t
/-- expression.cpp:145-151. -/
def Val.cacheableItems : List (Str × Val N A) → Bool
  | [] => true
  | (_, v) :: t => v.cacheable && Val.cacheableItems t
end

theorem Val.eq_of_str? {N A : Type} {v : Val N A} {s : Str} (h : v.str? = some s) : v = .str s := by
  cases v <;> simp_all [Val.str?]

theorem Val.eq_of_list? {N A : Type} {v : Val N A} {l : List (Val N A)} (h : v.list? = some l) :
    v = .list l := by
  cases v <;> simp_all [Val.list?]

theorem Val.eq_of_map? {N A : Type} {v : Val N A} {m : List (Str × Val N A)}
    (h : v.map? = some m) : v = .map m := by
  cases v <;> simp_all [Val.map?]

end Verif.Expr
