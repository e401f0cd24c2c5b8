import Verif.Model.OptionsBytes
import Verif.Proof.BsonRecord
/-!
# Lemmas: options in BSON
-/

namespace Splitgill

theorem hintOf_toBson (h : PyStr × PyStr × Option PyStr × Int) : hintOf (hintToBson h) = some h := by
  obtain ⟨a, b, r, s⟩ := h
  cases r <;> rfl

theorem OptionsDoc.ofBson_toBson (o : OptionsDoc) : OptionsDoc.ofBson o.toBson = some o := by
  obtain ⟨a, b, c, d, e, f⟩ := o
  have h1 : ∀ l : List PyStr, (l.map Value.str).mapM strOf = some l := mapM_map_some (f := strOf) (g := Value.str) (fun _ => rfl)
  have h2 := mapM_map_some hintOf_toBson
  unfold OptionsDoc.toBson OptionsDoc.ofBson
  show ((List.map Value.str a).mapM strOf).bind _ = _
  rw [h1, Option.bind_some]
  show ((List.map Value.str b).mapM strOf).bind _ = _
  rw [h1, Option.bind_some]
  show ((List.map Value.str c).mapM strOf).bind _ = _
  rw [h1, Option.bind_some]
  show ((List.map hintToBson d).mapM hintOf).bind _ = _
  rw [h2]
  rfl

theorem OptDoc.ofBson_toBson (d : OptDoc) : OptDoc.ofBson d.toBson = some d := by
  obtain ⟨n, v, o⟩ := d
  have h := OptionsDoc.ofBson_toBson o
  unfold OptDoc.toBson OptDoc.ofBson
  cases v
  · show ((OptionsDoc.ofBson o.toBson).map _) = _
    rw [h]; rfl
  · show ((OptionsDoc.ofBson o.toBson).map _) = _
    rw [h]; rfl

theorem OptDoc.bsonable {F : FloatBytes} {d : OptDoc} (hv : ∀ v, d.version = some v → -2 ^ 63 ≤ v ∧ v < 2 ^ 63)
    (hk : -2 ^ 63 ≤ d.options.keywordLength ∧ d.options.keywordLength < 2 ^ 63)
    (hs : ∀ h ∈ d.options.geoHints, -2 ^ 63 ≤ h.2.2.2 ∧ h.2.2.2 < 2 ^ 63) : Bsonable F d.toBson := by
  have none : Bsonable F .none := ⟨⟨fun _ h => (nomatch h), fun _ h => (nomatch h)⟩, trivial⟩
  have texts : ∀ l : List PyStr, Bsonable F (.list (l.map .str)) := fun l => .list fun v hv => by
    obtain ⟨s, -, rfl⟩ := List.mem_map.1 hv
    exact .str s
  have names : ∀ s : String, s ∈ ["true_values", "false_values", "date_formats", "geo_hints", "keyword_length", "float_format", "name", "version", "options"] →
      NoNul s.toList := by
    intro s hs
    unfold NoNul
    revert s
    decide
  refine .dict ?_
  simp only [List.forall_mem_cons]
  refine ⟨⟨names "name" (by decide), .str _⟩, ⟨names "version" (by decide), ?_⟩, ⟨names "options" (by decide), ?_⟩, fun _ h => (nomatch h)⟩
  · cases e : d.version with
    | none => exact none
    | some v => exact .int (hv v e)
  · refine .dict ?_
    simp only [List.forall_mem_cons]
    refine ⟨⟨names "true_values" (by decide), texts _⟩, ⟨names "false_values" (by decide), texts _⟩, ⟨names "date_formats" (by decide), texts _⟩,
      ⟨names "geo_hints" (by decide), .list fun v hm => ?_⟩, ⟨names "keyword_length" (by decide), .int hk⟩,
      ⟨names "float_format" (by decide), .str _⟩, fun _ h => (nomatch h)⟩
    obtain ⟨h, hh, rfl⟩ := List.mem_map.1 hm
    refine .list ?_
    simp only [List.forall_mem_cons]
    refine ⟨.str _, .str _, ?_, .int (hs h hh), fun _ h => (nomatch h)⟩
    cases h.2.2.1 with
    | none => exact none
    | some r => exact .str r

end Splitgill
