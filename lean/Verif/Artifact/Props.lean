import Verif.Artifact.Model

/-!
# Artifact descriptions: C62
-/

namespace Verif.Art

open Verif.Dig

variable {N : Type}

/-- A description as created by the tool for a hash type: digests are proper ones of that type, and are
the ones of trees exactly if the object is a tree and trees exist for the hash type. -/
def Desc.Valid (t : HashType) : Desc → Prop
  | .known d ty _ => d.Valid ∧ d.type = t ∧ d.tree = (t.treeAllowed && ty.isTree)
  | _ => True

/-- The description without the repository the content was known from. -/
def Desc.forget : Desc → Desc
  | .known d ty _ => .known d ty none
  | d => d

/-- C62: reading the JSON form of a description gives the description back, except for the repository in
which a known artifact was found. -/
theorem C62_round_trip (t : HashType) (cast : N → Nat) (d : Desc) (h : d.Valid t) :
    Desc.fromJson t cast d.toJson = some d.forget := by
  cases d with
  | known d ty r =>
    obtain ⟨h1, h2, h3⟩ := h
    have hc : createDigest t d.hash d.size ty.isTree = some d := by
      unfold createDigest
      rw [← h3, ← h2]
      exact create_valid h1
    have : knownOfJson (N := N) t cast (.obj [("file_type".toList, .str [ty.toChar]),
        ("id".toList, .str d.hash), ("size".toList, .num (.inr d.size))])
        = some (.known d ty none) := by
      have e : knownOfJson (N := N) t cast (.obj [("file_type".toList, .str [ty.toChar]),
          ("id".toList, .str d.hash), ("size".toList, .num (.inr d.size))])
          = (createDigest t d.hash d.size (ObjectType.ofChar ty.toChar).isTree).bind fun d =>
            some (.known d (ObjectType.ofChar ty.toChar) none) := rfl
      rw [e, ofChar_toChar, hc]
      rfl
    exact this
  | _ => rfl

/-- C62: descriptions with the same JSON form are the same, except for the repository in which a known
artifact was found. -/
theorem toJson_inj {t : HashType} {d d' : Desc} (h : d.Valid t) (h' : d'.Valid t)
    (e : (d.toJson : Json (N ⊕ Nat)) = d'.toJson) : d.forget = d'.forget := by
  have h1 := C62_round_trip (N := N) t (fun _ => 0) d h
  rw [e, C62_round_trip t _ d' h'] at h1
  exact (Option.some.inj h1).symm

/-- C62: the identifier of a description determines it, except for the repository in which a known
artifact was found, if the hash function has no collision among the two hashed texts. -/
theorem C62_identifier (H : Str → Str) {text : N ⊕ Nat → Str} (ht : Json.NumText text) (t : HashType)
    (d d' : Desc) (h : d.Valid t) (h' : d'.Valid t)
    (hH : H (Json.dump text Json.compact 0 d.toJson) = H (Json.dump text Json.compact 0 d'.toJson) →
      Json.dump text Json.compact 0 d.toJson = Json.dump text Json.compact 0 d'.toJson)
    (e : d.id H text = d'.id H text) : d.forget = d'.forget :=
  toJson_inj h h' (Json.dump_inj ht Json.compact_ok (hH e))

/-- Notation of natural numbers, for examples. -/
theorem decimal_numText : Json.NumText (Sum.elim (fun e : Empty => nomatch e) decimal) where
  inj := by
    rintro (a | a) (b | b) h
    · exact nomatch a
    · exact nomatch a
    · exact nomatch b
    · rw [decimal_inj h]
  chars := by
    rintro (a | a) c hc
    · exact nomatch a
    · unfold Json.isNum
      rw [decimal_isDigit a c hc]
      rfl
  first := by
    rintro (a | a)
    · exact nomatch a
    · obtain ⟨d, t, hd, e⟩ := decimal_head a
      exact ⟨digitChar d, t, e, by rw [(digitChar_cases d hd).1]; rfl⟩

example : Desc.fromJson (N := Empty) .gitSHA1 (fun _ => 0)
      (Desc.known ⟨zeros, .gitSHA1, true, 7⟩ .tree none).toJson
    = some (.known ⟨zeros, .gitSHA1, true, 7⟩ .tree none) :=
  C62_round_trip _ _ _ ⟨by decide, rfl, rfl⟩

example (e : (Desc.tree "a".toList).id id (Sum.elim (fun e : Empty => nomatch e) decimal)
      = (Desc.overlay "a".toList).id id (Sum.elim (fun e : Empty => nomatch e) decimal)) : False := by
  have := C62_identifier id decimal_numText .gitSHA1 (.tree "a".toList) (.overlay "a".toList) trivial
    trivial (fun h => h) e
  cases this

end Verif.Art
