import Verif.Props.Stable
import Verif.Props.OverlapQueries
/-!
# C89: all queries and listings at a past version stay the same
-/

namespace Splitgill.Props
open Splitgill

/-- Two listings have the same fields in the same order, with the same counts, also of each type. -/
def SameListing {T : Type} [DecidableEq T] (fs gs : List (FieldCounts T)) : Prop :=
  fs.map (fun f => (f.path, f.count)) = gs.map (fun f => (f.path, f.count)) ∧ ∀ f ∈ fs, ∀ g ∈ gs, f.path = g.path → ∀ t, f.countOf t = g.countOf t

theorem lists_same {T δ : Type} [DecidableEq T] {name : T → PyStr} {docs : List δ} {occ : δ → List PyStr → PyStr → Prop}
    {fs gs : List (FieldCounts T)} (h1 : ListsFields name docs occ fs) (h2 : ListsFields name docs occ gs) : SameListing fs gs := by
  have key : ∀ {a b : List (FieldCounts T)}, ListsFields name docs occ a → ListsFields name docs occ b →
      ∀ x ∈ a.map (fun f => (f.path, f.count)), x ∈ b.map (fun f => (f.path, f.count)) := by
    intro a b ha hb x hx
    obtain ⟨f, hf, rfl⟩ := List.mem_map.1 hx
    obtain ⟨g, hg, e⟩ := List.mem_map.1 ((hb.paths f.path).2 ((ha.paths f.path).1 (List.mem_map_of_mem hf)))
    refine List.mem_map.2 ⟨g, hg, ?_⟩
    rw [ha.count f hf, hb.count g hg, e]
  have srt : ∀ {a : List (FieldCounts T)}, ListsFields name docs occ a →
      (a.map (fun f => (f.path, f.count))).Pairwise (fun x y => y.2 < x.2 ∨ (x.2 = y.2 ∧ x.1 < y.1)) := fun ha => List.pairwise_map.2 ha.order
  have nd : ∀ {a : List (FieldCounts T)}, ListsFields name docs occ a → (a.map (fun f => (f.path, f.count))).Nodup := fun ha =>
    (show List.Nodup ((_ : List (PyStr × Nat)).map Prod.fst) by rw [List.map_map]; exact ha.once).of_map _
  constructor
  · refine List.Perm.eq_of_pairwise ?_ (srt h1) (srt h2) ((List.perm_ext_iff_of_nodup (nd h1) (nd h2)).2 fun x => ⟨key h1 h2 x, key h2 h1 x⟩)
    rintro x y - - (a | ⟨a, a'⟩) (b | ⟨b, b'⟩)
    · omega
    · omega
    · omega
    · exact absurd b' (lt_asymm a')
  · intro f hf g hg e t
    rw [h1.types f hf t, h2.types g hg t, e]

/-- What the indices say at version `v` is the same: the queries of `match_query`, `exists_query` and `has_geo` find the same records, searches without
a query do, and for every query that finds the same records, the listings of the fields are the same. -/
structure SameAnswers (E : ParseEnv) (U : Unicode) (rs : List Record) (opts : List (Int × ParsingOptions)) (es es' : ES (Option ParsedData)) (v : Int) : Prop where
  text : ∀ (Q : QueryEnv) (query : PyStr) (field : Option PyStr) (every : Bool) (id : PyStr),
    id ∈ foundIds (es.searchFor Q (.version v) (.match_ (matchQuery query field every))) ↔
      id ∈ foundIds (es'.searchFor Q (.version v) (.match_ (matchQuery query field every)))
  values : E.PlacesHaveValues → ∀ (Q : QueryEnv) (field : PyStr), (∀ k ∈ splitDots field, FieldName k) → ∀ id,
    id ∈ foundIds (es.searchFor Q (.version v) (.exists_ (existsQuery field))) ↔
      id ∈ foundIds (es'.searchFor Q (.version v) (.exists_ (existsQuery field)))
  places : ∀ (Q : QueryEnv) (id : PyStr), id ∈ foundIds (es.searchFor Q (.version v) (.exists_ hasGeo)) ↔
      id ∈ foundIds (es'.searchFor Q (.version v) (.exists_ hasGeo))
  none : ∀ (Q : QueryEnv) (id : PyStr), id ∈ foundIds (es.foundDocs Q (.version v) none) ↔ id ∈ foundIds (es'.foundDocs Q (.version v) none)
  listings : (∀ r ∈ rs, NestedNames '#' (.dict (prepareRecordData U r)) ∧ NestedNames '_' (.dict (prepareRecordData U r))) →
    (∀ x ∈ opts, E.HintsOk x.2) → ∀ (Q : QueryEnv) (q : Option EsQuery),
    (∀ id, id ∈ foundIds (es.foundDocs Q (.version v) q) ↔ id ∈ foundIds (es'.foundDocs Q (.version v) q)) →
    ∃ fs fs' gs gs', es.fieldsOfData Q (.version v) q = some (.ok fs) ∧ es'.fieldsOfData Q (.version v) q = some (.ok fs') ∧
      es.fieldsOfParsed Q (.version v) q = some (.ok gs) ∧ es'.fieldsOfParsed Q (.version v) q = some (.ok gs') ∧
      SameListing (fs.map DataField.toFieldCounts) (fs'.map DataField.toFieldCounts) ∧ SameListing gs gs'

theorem sameAnswers_of {E : ParseEnv} {U : Unicode} {rs rs' : List Record} {s s' : Store} {opts opts' : List (Int × ParsingOptions)}
    {es es' : ES (Option ParsedData)} {v : Int} (h : AnswersAll E U rs s opts es) (h' : AnswersAll E U rs' s' opts' es')
    (hrs : ∀ r ∈ rs, r ∈ rs') (hopts : ∀ x ∈ opts, x ∈ opts') (hp : ∀ id, (s id).pending = none ↔ (s' id).pending = none)
    (ha : ∀ id d, AsOf (s id).committed v d ↔ AsOf (s' id).committed v d)
    (ho : ∀ id o, OptionsAsOf (effectiveOptions (s id).committed opts) v o ↔ OptionsAsOf (effectiveOptions (s' id).committed opts') v o)
    (hf : ∀ id, SameFound es es' v id) : SameAnswers E U rs' opts' es es' v := by
  have hold : ∀ id P, HoldsAsOf s opts v id P ↔ HoldsAsOf s' opts' v id P := by
    intro id P
    unfold HoldsAsOf
    simp only [hp id, ha id, ho id]
  refine ⟨fun Q query field every id => ?_, fun hP Q field hk id => ?_, fun Q id => ?_, fun Q id => ?_, fun hk hH Q q hq => ?_⟩
  · rw [(h.queries.text Q query field every v).2 id, (h'.queries.text Q query field every v).2 id, hold]
  · rw [(h.queries.values hP Q field hk v).2 id, (h'.queries.values hP Q field hk v).2 id]
    simp only [hp id, ha id]
  · rw [(h.queries.places Q v).2 id, (h'.queries.places Q v).2 id, hold]
  · rw [← foundBy_iff (q := none), ← foundBy_iff (q := none)]
    show foundFor es (.version v) id ≠ [] ↔ foundFor es' (.version v) id ≠ []
    have := (hf id).length_eq
    rw [← List.length_pos_iff, ← List.length_pos_iff, this]
  · have hk1 := fun r hr => hk r (hrs r hr)
    have hH1 := fun x hx => hH x (hopts x hx)
    have hall' : ∀ r ∈ rs', r.id ∈ (rs'.map Record.id).dedup := fun r hr => List.mem_dedup.2 (List.mem_map_of_mem hr)
    have c := h.contents _ (List.nodup_dedup (rs'.map Record.id)) (fun r hr => hall' r (hrs r hr)) hk1
    have c' := h'.contents _ (List.nodup_dedup (rs'.map Record.id)) hall' hk
    obtain ⟨fs, a1, a2, _⟩ := c.data Q v q
    obtain ⟨fs', b1, b2, _⟩ := c'.data Q v q
    obtain ⟨gs, d1, d2⟩ := c.parsed hH1 Q v q
    obtain ⟨gs', e1, e2⟩ := c'.parsed hH Q v q
    refine ⟨fs, fs', gs, gs', a1, b1, d1, e1, lists_same (listsFields_iff a2 fun id _ p t => ?_) b2,
      lists_same (listsFields_iff d2 fun id _ p t => ?_) e2⟩
    · rw [foundBy_iff, foundBy_iff, hq]
      simp only [ha id]
    · rw [foundBy_iff, foundBy_iff, hq]
      simp only [ha id, ho id]

/-- **C89** for all queries and for the listings of fields, under the conditions of C70. -/
theorem C89_answers_partial (E : ParseEnv) (hE : E.IgnoresOrder) (hS : E.ScalarHints) (U : Unicode) (hU : U.Sane) (maxDocs : Nat)
    (db : PyStr) (first : List ApiCall) (parts more : List (List ApiCall)) (h : Settled U db first (parts ++ more)) :
    ∃ es es', runSyncs (realParser E) maxDocs db [] (statesOf U db first parts) = .ok es ∧
      runSyncs (realParser E) maxDocs db [] (statesOf U db first (parts ++ more)) = .ok es' ∧
      ∀ v, AllAfter v more.flatten → SameAnswers E U ((first ++ (parts ++ more).flatten).flatMap ApiCall.stream)
        (committedOptionsOf db (afterCalls U db (first ++ (parts ++ more).flatten))) es es' v := by
  have ho := h.orderly
  have hopt := h.options
  have hn := h.noPuns
  have e : first ++ (parts ++ more).flatten = (first ++ parts.flatten) ++ more.flatten := by simp
  have ho1 : Orderly (first ++ parts.flatten) := by rw [e] at ho; exact ho.left
  have hopt1 : ∀ o ∈ (first ++ parts.flatten).filterMap ApiCall.options?, OptionsOk o := fun o hm => hopt o (by
    rw [e, List.filterMap_append]; exact List.mem_append_left _ hm)
  have hn1 : NoPunsAmong U ((first ++ parts.flatten).flatMap ApiCall.stream) := by
    rw [e, List.flatMap_append] at hn; exact hn.left
  obtain ⟨es, hi, a1, al, am, a2, a3, ap⟩ := setup_syncs E hE U hU maxDocs db first parts ho1 h.version h.noUpdateDelete.left
    (fun m hm => h.noPending m (statesOf_left parts more first m hm)) hn1
  obtain ⟨es', hi', b1, bl, bm, b2, b3, bp⟩ := setup_syncs E hE U hU maxDocs db first (parts ++ more) ho h.version h.noUpdateDelete
    h.noPending hn
  have i1 := C79_indexed U db _ ho1.clock hopt1
  have i2 := C79_indexed U db _ ho.clock hopt
  have hne : (optionsGiven U db (first ++ parts.flatten)).committed ≠ [] := by rw [← i1]; exact am.options.nonempty
  have hc := ho.clock
  rw [e] at hc
  refine ⟨es, es', a1, b1, fun v hv => ?_⟩
  have ha := fun id d => asOf_stable (U := U) (db := db) (a := first ++ parts.flatten) hv id d
  have hof := fun id o => effective_stable (U := U) (db := db) (a := first ++ parts.flatten) hc hne hv id o
  rw [← e] at ha hof
  rw [← i1, ← i2] at hof
  refine sameAnswers_of (answersAll_of_life hE hS al am a2 a3 (ingested_from U db _)) (answersAll_of_life hE hS bl bm b2 b3 (ingested_from U db _))
    (fun r hr => ?_) (fun x hx => ?_) (fun id => by rw [ap id, bp id]) ha hof
    (fun id => same_found hE hS al bl am bm a2 b2 a3 b3 (ap id) (bp id) (ha id) (hof id))
  · rw [e, List.flatMap_append]; exact List.mem_append_left _ hr
  · rw [i1] at hx
    rw [i2, e]
    exact (optionsGiven_adds U db _ _).sub x hx

set_option maxRecDepth 100000 in
/-- The hypotheses hold for the calls of C31 (`Settled`, see `Verif.Props.Stable`): `a` is changed and `b` deleted by the later calls. Before and after
them, `get_parsed_fields(1)` says that two records have the field `x`; without a version it says one afterwards. -/
example : AllAfter 1 exParts.flatten ∧
    (match runSyncs (realParser exEnv') 10 ['x'] [] (statesOf asciiU ['x'] exCalls1 []),
        runSyncs (realParser exEnv') 10 ['x'] [] (statesOf asciiU ['x'] exCalls1 ([] ++ exParts)) with
      | .ok es, .ok es' =>
        let count := fun (es : ES (Option ParsedData)) at_ => (es.fieldsOfParsed exQuery at_ none).map (fun r => r.toOption.map (fun gs =>
          (gs.filter (fun g => g.path == ['x'])).map (fun g => (g.count, g.countOf .number))))
        decide (count es (.version 1) = some (some [(2, 2)]) ∧ count es' (.version 1) = some (some [(2, 2)]) ∧
          count es' .latest = some (some [(1, 1)]))
      | _, _ => false) = true :=
  ⟨by unfold AllAfter; decide, by decide +kernel⟩

end Splitgill.Props
