import Verif.LinkedMap.Model

/-!
# Specification of layered maps

A layered map is seen as a list of plain maps, topmost first.
-/

namespace Verif.LinkedMap

variable {K V : Type} [LinearOrder K]

/-- The overlays of a tower, topmost first.  A map given through `content_`
contributes its own overlays. -/
def Ptr.layers : Ptr K V → List (OMap K V)
  | .null => []
  | .node next .null map => map :: next.layers
  | .node next (.node n c m) _ => (Ptr.node n c m).layers ++ next.layers

/-- The value of the first map of the list that binds `k`. -/
def firstBinding (k : K) (ms : List (OMap K V)) : Option V :=
  ms.findSome? (fun m => m.find k)

/-- The value of the last map of the list that binds `k`. -/
def lastBinding (k : K) (ms : List (Ptr K V)) : Option V :=
  ms.reverse.findSome? (fun m => m.find k)

/-- No key is bound to two different values by maps of the list. -/
def Compatible (ms : List (Ptr K V)) : Prop :=
  ∀ m ∈ ms, ∀ m' ∈ ms, ∀ k v v', m.find k = some v → m'.find k = some v' → v = v'

end Verif.LinkedMap
