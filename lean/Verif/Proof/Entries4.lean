import Verif.Proof.Entries3
import Verif.Proof.Filter
import Verif.Proof.EndToEnd2
/-!
# Lemmas: documents of the parser in an index, and the queries that find them
-/

namespace Splitgill

variable {E : ParseEnv} {o : ParsingOptions}

theorem onlyScalars_leaves (E : ParseEnv) (o : ParsingOptions) : ParserLeaves E o OnlyScalars :=
  ⟨fun _ h => h, fun _ => rfl, fun _ => rfl, fun _ => rfl, fun _ => rfl, fun _ => rfl, fun _ => rfl, fun _ _ _ => ⟨rfl, rfl⟩,
    fun _ _ _ => ⟨rfl, rfl⟩, fun _ _ _ _ _ _ => ⟨rfl, rfl⟩, fun _ _ _ h => nomatch h⟩

theorem onlyScalars_sent {t : PType} {v : Value} (h : OnlyScalars t v) : OnlyScalars t v.sent := by
  cases v with
  | float f => cases f <;> rfl
  | list _ => cases h
  | dict _ => cases h
  | _ => rfl

theorem onlyScalars_canon {t : PType} {v : Value} (h : OnlyScalars t v) : OnlyScalars t (canon v) := by
  cases v with
  | list _ => cases h
  | dict _ => cases h
  | _ => rfl

theorem wf_sent : ∀ v : Value, v.wf = true → v.sent.wf = true := by
  refine Value.ind' ?_ ?_ ?_
  · intro v hv hw
    cases v with
    | float f => cases f <;> rfl
    | list _ => cases hv
    | dict _ => cases hv
    | _ => exact hw
  · intro l ih hw
    rw [Value.sent, wf_list_iff, sentList_map]
    intro v hv
    obtain ⟨w, h1, rfl⟩ := List.mem_map.1 hv
    exact ih w h1 (wf_list_iff.1 hw w h1)
  · intro d ih hw
    rw [wf_dict_iff] at hw
    rw [Value.sent, wf_dict_iff, sentDict_map]
    refine ⟨by rw [show akeys (d.map fun kv => (kv.1, kv.2.sent)) = akeys d by simp [akeys]]; exact hw.1, fun k v hv => ?_⟩
    obtain ⟨⟨k', w⟩, h1, h2⟩ := List.mem_map.1 hv
    cases h2
    exact ih k' w h1 (hw.2 k' w h1)

/-- What the parser makes, in an index that has its fields. -/
theorem docIn_made (hE : E.IgnoresOrder) {opts : ParsingOptions → Prop} {doc : Doc ParsedData} {m : Mapping} (h : MadeFrom E opts doc.parsed)
    (hc : CoveredDoc m (sentDict doc.toDict)) : DocIn m doc := by
  obtain ⟨data, o, hw, hf, ho, hp⟩ := h
  simp only [realParser] at hp
  split at hp
  · rename_i x hx
    have hp := Option.some.inj hp
    refine ⟨?_, ?_, hc⟩
    · rw [← hp]
      exact sentDict_shaped (L := OnlyScalars) (fun t v h => onlyScalars_sent (t := t) h) false _
        (canonDict_shaped (L := OnlyScalars) (fun t v h => onlyScalars_canon (t := t) h) false _ (parse_shaped (onlyScalars_leaves E o) hw hf hx))
    · rw [← hp]
      exact wf_sent (.dict _) (canonDict_se (parsed_wf hE hw hx)).2.1
  · cases hp

/-- What is not finite does not matter for the queries. -/
theorem matches_sent (hE : E.IgnoresOrder) (Q : QueryEnv) {opts : ParsingOptions → Prop} {p : ParsedData} (h : MadeFrom E opts p) {q : EsQuery}
    (hP : q.AsksValues → E.PlacesHaveValues) (hq : q.Made) : q.matches Q (sentDict p.parsed) = q.matches Q p.parsed := by
  obtain ⟨data, o, hw, hf, ho, hp⟩ := h
  simp only [realParser] at hp
  split at hp
  · rename_i x hx
    have hp := Option.some.inj hp
    have hc := canonDict_se (parsed_wf hE hw hx)
    have hs : VR simScalarEq (.dict (sentDict (canonDict x.parsed))) (.dict (sentDict x.parsed)) := by
      refine SE.sim ⟨wf_sent (.dict _) hc.2.1, wf_sent (.dict _) hc.1, ?_⟩
      exact strictEq_sent (a := .dict (canonDict x.parsed)) (b := .dict x.parsed) hc.symm.2.2
    have hex : ∀ path, existsMatches path (sentDict x.parsed) = existsMatches path x.parsed →
        existsMatches path (sentDict p.parsed) = existsMatches path p.parsed := by
      intro path h
      rw [← hp]
      dsimp only
      rw [exists_sim hs, h, exists_sim hc.sim]
    cases hq with
    | term field t v ht => exact term_sent Q _ _
    | range field t b ht => exact range_sent Q _ _
    | exists_ field hk => exact hex _ (exists_sent (hP ⟨field, rfl⟩) hw hf hx hk)
    | hasGeo => exact hex _ (hasGeo_sent hE hw hf hx)
    | match_ query field every => exact match_sent Q _ _
  · cases hp

end Splitgill
