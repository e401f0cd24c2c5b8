import Verif.Proof.Text
import Verif.Proof.Places
/-!
# Lemmas for queries about one record
-/

namespace Splitgill

section
variable {E : ParseEnv} (hE : E.IgnoresOrder) (hS : E.ScalarHints) {db : PyStr} {m : Mongo} {s : Store}
  {hi : Option Int} {K : PyStr → DataClass} (hl : LifeInv K db m s hi) (hm : DbOk db m) {es : ES (Option ParsedData)}
  (h2 : LatestOk es) (h3 : IndexesRecords (realParser E) db m ((m.data db).filter (fun r => r.version.isSome)) es)
  {T : Places} {id : PyStr} (hK : K id = (strictClass T).named)
include hE hS hl hm h2 h3 hK

/-- Whether a query finds the record, if equal documents are found alike and it is known which parsed data matches. -/
theorem LifeInv.asked_by_at (Q : QueryEnv) (q : EsQuery) (P : Dict → ParsingOptions → Prop)
    (hsim : ∀ p p' : Dict, VR simScalarEq (.dict p) (.dict p') → q.matches Q p = q.matches Q p')
    (hparse : ∀ o a pd, (Value.dict a).wf = true → FieldNames (.dict a) → parse E o a = .ok pd → (q.matches Q pd.parsed = true ↔ P a o))
    (hne' : ∀ a o, P a o → a ≠ []) (v : Int) :
    id ∈ foundIds (es.searchFor Q (.version v) q) ↔ HoldsAsOf s (committedOptionsOf db m) v id P := by
  have key : ∀ {d a o}, foundFor es (.version v) id = [d] → AsOf (s id).committed v a → a ≠ [] → (s id).pending = none →
      OptionsAsOf (effectiveOptions (s id).committed (committedOptionsOf db m)) v o → (q.finds Q d = true ↔ P a o) := by
    intro d a o hd ha hne hp ho
    obtain ⟨d', p, q1, a0, o0, q0, g1, g2, g3, g3', g4, g5, g6, g7, g8, g9, _⟩ := hl.found_doc_at hE hS hm h2 h3 hK ha hne hp ho
    rw [hd] at g1
    cases g1
    simp only [EsQuery.finds, g2]
    rw [hsim _ _ g9, hparse o a q1 g3 g3' g4]
  constructor
  · intro h
    obtain ⟨d, hd, hid⟩ := List.mem_map.1 h
    obtain ⟨hd1, hd2⟩ := List.mem_filter.1 hd
    obtain ⟨hp, a, o, ha, hne, ho, hf⟩ := hl.found_exists_at hE hS hm h2 h3 hK hd1 hid
    exact ⟨hp, a, o, ha, ho, (key hf ha hne hp ho).1 hd2⟩
  · rintro ⟨hp, a, o, ha, ho, hin⟩
    have hne := hne' _ _ hin
    obtain ⟨d, _, _, _, _, _, g1, _⟩ := hl.found_doc_at hE hS hm h2 h3 hK ha hne hp ho
    have hd := mem_found_iff.1 (show d ∈ foundFor es (.version v) id by rw [g1]; simp)
    exact List.mem_map.2 ⟨d, List.mem_filter.2 ⟨hd.1, (key g1 ha hne hp ho).2 hin⟩, hd.2⟩

/-- Whether a match query finds the record. -/
theorem LifeInv.asked_text_at (Q : QueryEnv) (query : PyStr) (field : Option PyStr) (every : Bool) (v : Int) :
    id ∈ foundIds (es.searchFor Q (.version v) (.match_ (matchQuery query field every))) ↔
      HoldsAsOf s (committedOptionsOf db m) v id (fun a o => MatchesText Q.analyse every query (IsTextOf E o a field)) := by
  refine hl.asked_by_at hE hS hm h2 h3 hK Q _ _ (fun p p' h => ?_) (fun o a pd hw hf h => ?_) (fun a o h => h.ne_nil) v
  · rw [Bool.eq_iff_iff]
    show (matchQuery query field every).matches Q p = true ↔ (matchQuery query field every).matches Q p' = true
    rw [match_iff, match_iff]
    exact MatchesText.congr (texts_sim h query field every)
  · exact match_parse hE hw hf h Q query field every

/-- Whether an exists query finds the record. -/
theorem LifeInv.asked_exists_at (hP : E.PlacesHaveValues) (Q : QueryEnv) (field : PyStr) (hk : ∀ k ∈ splitDots field, FieldName k) (v : Int) :
    id ∈ foundIds (es.searchFor Q (.version v) (.exists_ (existsQuery field))) ↔
      HoldsAsOf s (committedOptionsOf db m) v id (fun a _ => ∃ p x, fieldPath p = field ∧ getAt p (.dict a) = some x ∧ HasValue x) := by
  refine hl.asked_by_at hE hS hm h2 h3 hK Q (.exists_ (existsQuery field))
    (fun a _ => ∃ p x, fieldPath p = field ∧ getAt p (.dict a) = some x ∧ HasValue x) (fun p p' h => exists_sim h (existsQuery field)) (fun o a pd hw hf h => exists_iff hP hw hf h hk) ?_ v
  rintro a _ ⟨p, x, g1, g2, p', w, g3, g4⟩ rfl
  cases p with
  | nil =>
    cases g2
    cases p' with
    | nil => cases g3; cases g4
    | cons x p => cases x <;> simp [getAt, aget] at g3
  | cons x p => cases x <;> simp [getAt, aget] at g2

/-- Whether `has_geo` finds the record. -/
theorem LifeInv.asked_geo_at (Q : QueryEnv) (v : Int) :
    id ∈ foundIds (es.searchFor Q (.version v) (.exists_ hasGeo)) ↔
      HoldsAsOf s (committedOptionsOf db m) v id (fun a o => ∃ p g, PlaceAt E o a p g) :=
  hl.asked_by_at hE hS hm h2 h3 hK Q (.exists_ hasGeo) (fun a o => ∃ p g, PlaceAt E o a p g) (fun p p' h => exists_sim h hasGeo)
    (fun o a pd hw hf h => hasGeo_parse hE hS hw hf h) (fun a o h => PlaceAt.ne_nil h hS) v

end

end Splitgill
