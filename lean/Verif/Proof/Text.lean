import Verif.Proof.Copied
import Verif.Proof.Filter3
import Verif.Spec.Text
/-!
# Lemmas: full text
-/

namespace Splitgill

/-- The paths of a match query, without the last name. -/
def TextPath (field : Option PyStr) (ks : List PyStr) : Prop :=
  match field with
  | none => ks ≠ []
  | some f => ks = splitDots f

theorem mem_esTexts {p : Dict} (hw : (Value.dict p).wf = true) (query : PyStr) (field : Option PyStr) (every : Bool) {s : Value} :
    s ∈ esTexts (matchQuery query field every).path p ↔ ∃ ks, TextPath field ks ∧ s ∈ esValues (.dict p) (ks ++ ["_t".toList]) := by
  cases field with
  | none =>
    rw [show esTexts (matchQuery query none every).path p = esCopied .text p from rfl, mem_esCopied hw]
    rfl
  | some f =>
    have h1 : splitDots (parsedPath f .text) = "data".toList :: (splitDots f ++ ["_t".toList]) := by
      rw [parsedPath, splitDots_append, splitDots_append]
      rfl
    have h2 : copiedTo (parsedPath f .text) = none := by simp [copiedTo, parsedPath]
    have h3 : esTexts (matchQuery query (some f) every).path p = esValues (.dict p) (splitDots f ++ ["_t".toList]) := by
      show esTexts (parsedPath f .text) p = _
      unfold esTexts
      rw [h2, h1]
      dsimp only
      rw [if_pos ⟨rfl, by rw [List.getLast?_append]; rfl⟩]
    rw [h3]
    constructor
    · exact fun h => ⟨_, rfl, h⟩
    · rintro ⟨ks, rfl, h⟩; exact h

/-- The texts in parsed data. -/
theorem texts_parse {E : ParseEnv} {o : ParsingOptions} {d : Dict} {pd : ParsedData} (hw : (Value.dict d).wf = true)
    (hf : FieldNames (.dict d)) (h : parse E o d = .ok pd) (field : Option PyStr) {s : Value} :
    (∃ ks, TextPath field ks ∧ s ∈ esValues (.dict pd.parsed) (ks ++ ["_t".toList])) ↔
      ∃ x, IsTextOf E o d field x ∧ s = .str x := by
  have htext : ∀ v, aget "_t".toList (parseValue E o v) = some (.str (textOf E o v)) := by
    intro v
    rw [aget_base (by decide), ← strValue_eq]
    rfl
  have hpt : PlainType "_t".toList := by simp [PlainType]
  have hpath : ∀ {p w}, getAt p (.dict d) = some w → w.isIndexed = true →
      (TextPath field (keysOf p) ↔ ∀ f, field = some f → fieldPath p = f) := by
    intro p w hp hi
    have hsc := Value.isScalar_of_isIndexed hi
    cases field with
    | none => exact ⟨fun _ f e => (nomatch e), fun _ => keysOf_ne hp hsc⟩
    | some f =>
      constructor
      · rintro e f' ⟨⟩
        exact (fieldPath_iff hf hp hsc).2 e
      · intro e
        exact (fieldPath_iff hf hp hsc).1 (e f rfl)
  constructor
  · rintro ⟨ks, hks, hs⟩
    have hsc := esValues_scalar _ _ hs
    obtain ⟨p, hp, hg⟩ := (mem_esValues hsc.1 hsc.2 _ _).1 hs
    obtain ⟨p0, q, rfl, h1, h2⟩ := keysOf_split p _ _ hp
    rw [getAt_append, Option.bind_eq_some_iff] at hg
    obtain ⟨y, hy, hyq⟩ := hg
    obtain ⟨w, hw1, hw2, hw3⟩ := parse_inv hw hf h hpt hy
    have hys := parseValue_scalar (Value.isScalar_of_isIndexed hw2) hw3
    have hq : q = [] := by
      cases q with
      | nil => rfl
      | cons a q => rw [getAt_scalar_cons hys] at hyq; cases hyq
    subst hq
    cases hyq
    rw [htext] at hw3
    cases hw3
    exact ⟨_, ⟨p0, w, (hpath hw1 hw2).1 (by rw [h1]; exact hks), hw1, hw2, rfl⟩, rfl⟩
  · rintro ⟨x, ⟨p, v, h1, h2, h3, rfl⟩, rfl⟩
    refine ⟨keysOf p, (hpath h2 h3).2 h1, ?_⟩
    rw [mem_esValues rfl (by simp)]
    obtain ⟨pv, h6, h7⟩ := parse_at hw hf h h2 h3
    refine ⟨p ++ [.key "_t".toList], ?_, ?_⟩
    · rw [keysOf, List.filterMap_append]
      rfl
    · rw [getAt_append, h6]
      show (aget "_t".toList pv).bind (getAt []) = _
      rw [h7 _ (by decide), htext]
      rfl

theorem parsed_wf {E : ParseEnv} (hE : E.IgnoresOrder) {o : ParsingOptions} {d : Dict} {pd : ParsedData} (hw : (Value.dict d).wf = true)
    (h : parse E o d = .ok pd) : (Value.dict pd.parsed).wf = true := by
  obtain ⟨_, _, w1, _⟩ := parse_eq hE (SE.refl hw) h
  exact w1.1

/-- What a match query asks of the texts of a document. -/
theorem match_iff (Q : QueryEnv) (query : PyStr) (field : Option PyStr) (every : Bool) (p : Dict) :
    (matchQuery query field every).matches Q p = true ↔
      MatchesText Q.analyse every query (fun x => Value.str x ∈ esTexts (matchQuery query field every).path p) := by
  have h1 : (matchQuery query field every).query = query := by cases field <;> rfl
  have h2 : (matchQuery query field every).every = every := by cases field <;> rfl
  have h3 : ∀ w, w ∈ (esTexts (matchQuery query field every).path p).flatMap (esWords Q) ↔
      ∃ s, Value.str s ∈ esTexts (matchQuery query field every).path p ∧ w ∈ Q.analyse s := by
    intro w
    rw [List.mem_flatMap]
    constructor
    · rintro ⟨x, hx, hw⟩
      cases x with
      | str s => exact ⟨s, hx, hw⟩
      | _ => cases hw
    · rintro ⟨s, hs, hw⟩
      exact ⟨_, hs, hw⟩
  unfold EsMatch.matches MatchesText
  rw [h1, h2]
  cases every with
  | true =>
    rw [if_pos rfl, Bool.and_eq_true, List.all_eq_true]
    simp only [decide_eq_true_eq, h3]
    cases Q.analyse query <;> simp
  | false =>
    rw [if_neg (by simp), List.any_eq_true]
    simp only [decide_eq_true_eq, h3]
    constructor
    · rintro ⟨w, hw, h⟩
      exact ⟨List.ne_nil_of_mem hw, w, hw, h⟩
    · rintro ⟨_, w, hw, h⟩
      exact ⟨w, hw, h⟩

theorem MatchesText.congr {words : PyStr → List PyStr} {every : Bool} {query : PyStr} {t t' : PyStr → Prop} (h : ∀ s, t s ↔ t' s) :
    MatchesText words every query t ↔ MatchesText words every query t' := by
  rw [show t = t' from funext fun s => propext (h s)]

/-- Equal documents have the same texts. -/
theorem texts_sim {p p' : Dict} (h : VR simScalarEq (.dict p) (.dict p')) (query : PyStr) (field : Option PyStr) (every : Bool) (x : PyStr) :
    Value.str x ∈ esTexts (matchQuery query field every).path p ↔ Value.str x ∈ esTexts (matchQuery query field every).path p' := by
  have key : ∀ {p p' : Dict}, VR simScalarEq (.dict p) (.dict p') →
      Value.str x ∈ esTexts (matchQuery query field every).path p → Value.str x ∈ esTexts (matchQuery query field every).path p' := by
    intro p p' h hx
    obtain ⟨ks, h1, h2⟩ := (mem_esTexts h.1 query field every).1 hx
    obtain ⟨s', h3, h4⟩ := esValues_sim sim_none h h2
    have : s' = .str x := by
      cases s' <;> simp_all [simScalarEq, Value.num]
    subst this
    exact (mem_esTexts h.2.1 query field every).2 ⟨ks, h1, h3⟩
  exact ⟨key h, key ⟨h.2.1, h.1, simEq_symm h.1 h.2.1 h.2.2⟩⟩

/-- A match query on the parsed data of a record. -/
theorem match_parse {E : ParseEnv} (hE : E.IgnoresOrder) {o : ParsingOptions} {d : Dict} {pd : ParsedData} (hw : (Value.dict d).wf = true)
    (hf : FieldNames (.dict d)) (h : parse E o d = .ok pd) (Q : QueryEnv) (query : PyStr) (field : Option PyStr) (every : Bool) :
    (matchQuery query field every).matches Q pd.parsed = true ↔ MatchesText Q.analyse every query (IsTextOf E o d field) := by
  rw [match_iff]
  refine MatchesText.congr fun s => ?_
  rw [mem_esTexts (parsed_wf hE hw h), texts_parse hw hf h]
  constructor
  · rintro ⟨x, h1, h2⟩; cases h2; exact h1
  · exact fun h => ⟨s, h, rfl⟩

theorem MatchesText.ne_nil {E : ParseEnv} {o : ParsingOptions} {words : PyStr → List PyStr} {every : Bool} {query : PyStr} {a : Dict}
    {field : Option PyStr} (h : MatchesText words every query (IsTextOf E o a field)) : a ≠ [] := by
  rintro rfl
  have hno : ∀ s, ¬ IsTextOf E o [] field s := by
    rintro s ⟨p, v, _, h2, h3, _⟩
    cases p with
    | nil => cases h2; cases h3
    | cons x p => cases x <;> simp [getAt, aget] at h2
  obtain ⟨h0, h⟩ := h
  cases every with
  | true =>
    obtain ⟨w, hw⟩ := List.exists_mem_of_ne_nil _ h0
    obtain ⟨s, hs, _⟩ := h w hw
    exact hno s hs
  | false =>
    obtain ⟨w, _, s, hs, _⟩ := h
    exact hno s hs

section
variable {E : ParseEnv} (hE : E.IgnoresOrder) (hS : E.ScalarHints) {db : PyStr} {m : Mongo} {s : Store}
  {hi : Option Int} {U : Unicode} {rs : List Record} {hn : NoPunsAmong U rs}
  (hl : LifeInv (fun id => (strictClass (placesOf U rs hn id)).named) db m s hi) (hm : DbOk db m) {es : ES (Option ParsedData)}
  (h2 : LatestOk es) (h3 : IndexesRecords (realParser E) db m ((m.data db).filter (fun r => r.version.isSome)) es)
include hE hS hl hm h2 h3

/-- Which records a query finds, if equal documents are found alike and it is known which parsed data matches. -/
theorem LifeInv.asked_by (Q : QueryEnv) (q : EsQuery) (P : Dict → ParsingOptions → Prop)
    (hsim : ∀ p p' : Dict, VR simScalarEq (.dict p) (.dict p') → q.matches Q p = q.matches Q p')
    (hparse : ∀ o a pd, (Value.dict a).wf = true → FieldNames (.dict a) → parse E o a = .ok pd → (q.matches Q pd.parsed = true ↔ P a o))
    (hne' : ∀ a o, P a o → a ≠ []) (v : Int) :
    (foundIds (es.searchFor Q (.version v) q)).Nodup ∧ ∀ id,
      (id ∈ foundIds (es.searchFor Q (.version v) q) ↔ HoldsAsOf s (committedOptionsOf db m) v id P) := by
  refine ⟨found_nodup (hl.found_once hE hS hm h2 h3 v) _, fun id => ?_⟩
  have key : ∀ {d a o}, foundFor es (.version v) id = [d] → AsOf (s id).committed v a → a ≠ [] → (s id).pending = none →
      OptionsAsOf (effectiveOptions (s id).committed (committedOptionsOf db m)) v o → (q.finds Q d = true ↔ P a o) := by
    intro d a o hd ha hne hp ho
    obtain ⟨d', p, q1, a0, o0, q0, g1, g2, g3, g3', g4, g5, g6, g7, g8, g9, _⟩ := hl.found_doc hE hS hm h2 h3 ha hne hp ho
    rw [hd] at g1
    cases g1
    simp only [EsQuery.finds, g2]
    rw [hsim _ _ g9, hparse o a q1 g3 g3' g4]
  constructor
  · intro h
    obtain ⟨d, hd, hid⟩ := List.mem_map.1 h
    obtain ⟨hd1, hd2⟩ := List.mem_filter.1 hd
    obtain ⟨hp, a, o, ha, hne, ho, hf⟩ := hl.found_exists hE hS hm h2 h3 hd1 hid
    exact ⟨hp, a, o, ha, ho, (key hf ha hne hp ho).1 hd2⟩
  · rintro ⟨hp, a, o, ha, ho, hin⟩
    have hne := hne' _ _ hin
    obtain ⟨d, _, _, _, _, _, g1, _⟩ := hl.found_doc hE hS hm h2 h3 ha hne hp ho
    have hd := mem_found_iff.1 (show d ∈ foundFor es (.version v) id by rw [g1]; simp)
    exact List.mem_map.2 ⟨d, List.mem_filter.2 ⟨hd.1, (key g1 ha hne hp ho).2 hin⟩, hd.2⟩

/-- Which records a match query finds. -/
theorem LifeInv.asked_text (Q : QueryEnv) (query : PyStr) (field : Option PyStr) (every : Bool) (v : Int) :
    (foundIds (es.searchFor Q (.version v) (.match_ (matchQuery query field every)))).Nodup ∧ ∀ id,
      (id ∈ foundIds (es.searchFor Q (.version v) (.match_ (matchQuery query field every))) ↔
        HoldsAsOf s (committedOptionsOf db m) v id (fun a o => MatchesText Q.analyse every query (IsTextOf E o a field))) := by
  refine hl.asked_by hE hS hm h2 h3 Q _ _ (fun p p' h => ?_) (fun o a pd hw hf h => ?_) (fun a o h => h.ne_nil) v
  · rw [Bool.eq_iff_iff]
    show (matchQuery query field every).matches Q p = true ↔ (matchQuery query field every).matches Q p' = true
    rw [match_iff, match_iff]
    exact MatchesText.congr (texts_sim h query field every)
  · exact match_parse hE hw hf h Q query field every

end

end Splitgill
