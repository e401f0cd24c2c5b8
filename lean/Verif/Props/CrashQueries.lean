import Verif.Proof.CrashQueries
import Verif.Props.Crash
import Verif.Props.Places
import Verif.Props.Text
import Verif.Props.Versions
/-!
# C103: everything that is asked of the indices, when calls may be stopped half way

`Step`s are calls, calls that are stopped at any of their writes, and releases of the lock (`Verif.Model.Crash`); the histories that
they may give the records are `PossibleHistories` of `Verif.Spec.Crash`.
-/

namespace Splitgill.Props
open Splitgill

/-- Queries find each record once whose data as of the version (for histories `s` and committed options `opts`) has what is asked for,
and no other. -/
structure AnswersQueries (E : ParseEnv) (s : Store) (opts : List (Int × ParsingOptions)) (es : ES (Option ParsedData)) : Prop where
  /-- `term_query` and `range_query` -/
  asked : (∀ x ∈ opts, 0 ≤ x.2.keywordLength) → ∀ (Q : QueryEnv) (field : PyStr) (k : Asked), k.Bounded → ∃ q, k.query Q field = .ok q ∧
    ∀ v, (foundIds (es.searchFor Q (.version v) q)).Nodup ∧ ∀ id, id ∈ foundIds (es.searchFor Q (.version v) q) ↔
      HoldsAsOf s opts v id (fun a o => HasInField a field (k.holds Q E o))
  /-- `match_query` -/
  text : ∀ (Q : QueryEnv) (query : PyStr) (field : Option PyStr) (every : Bool) (v : Int),
    (foundIds (es.searchFor Q (.version v) (.match_ (matchQuery query field every)))).Nodup ∧
    ∀ id, id ∈ foundIds (es.searchFor Q (.version v) (.match_ (matchQuery query field every))) ↔
      HoldsAsOf s opts v id (fun a o => MatchesText Q.analyse every query (IsTextOf E o a field))
  /-- `exists_query` -/
  values : E.PlacesHaveValues → ∀ (Q : QueryEnv) (field : PyStr), (∀ k ∈ splitDots field, FieldName k) → ∀ v,
    (foundIds (es.searchFor Q (.version v) (.exists_ (existsQuery field)))).Nodup ∧
    ∀ id, id ∈ foundIds (es.searchFor Q (.version v) (.exists_ (existsQuery field))) ↔
      (s id).pending = none ∧ ∃ a, AsOf (s id).committed v a ∧ ∃ p x, fieldPath p = field ∧ getAt p (.dict a) = some x ∧ HasValue x
  /-- `has_geo` -/
  places : ∀ (Q : QueryEnv) (v : Int), (foundIds (es.searchFor Q (.version v) (.exists_ hasGeo))).Nodup ∧
    ∀ id, id ∈ foundIds (es.searchFor Q (.version v) (.exists_ hasGeo)) ↔ HoldsAsOf s opts v id (fun a o => ∃ p g, PlaceAt E o a p g)

/-- `get_versions`, `get_rounded_version` and the counts of changes tell when the records change, for histories `s` and committed options
`opts`. -/
structure TellsChanges (E : ParseEnv) (s : Store) (opts : List (Int × ParsingOptions)) (ids : List PyStr)
    (es : ES (Option ParsedData)) : Prop where
  versions : ∃ vs, es.versions = some vs ∧ vs.Pairwise (· < ·) ∧
    (∀ v, v ∈ vs ↔ ∃ id, (s id).pending = none ∧ ChangesAt E (s id).committed opts v) ∧
    ∀ v, (es.roundedVersion v = some none ∧ ∀ w ∈ vs, v < w) ∨
      ∃ w, es.roundedVersion v = some (some w) ∧ w ∈ vs ∧ w ≤ v ∧ ∀ w' ∈ vs, w' ≤ v → w' ≤ w
  counts : ∃ c, es.changedCounts = some c ∧ CountsChanges E s opts ids c

/-- `get_data_fields` and `get_parsed_fields` list the fields and types that the records have as of the version which the search finds, and
count these records. -/
structure ListsContents (E : ParseEnv) (s : Store) (opts : List (Int × ParsingOptions)) (ids : List PyStr)
    (es : ES (Option ParsedData)) : Prop where
  data : ∀ (Q : QueryEnv) (v : Int) (q : Option EsQuery), ∃ fs, es.fieldsOfData Q (.version v) q = some (.ok fs) ∧
    ListsFields DType.name ids (fun id p t => FoundBy Q es v q id ∧ ∃ a, AsOf (s id).committed v a ∧ DataTypeAt a p t)
      (fs.map DataField.toFieldCounts) ∧ LinksFields fs
  parsed : (∀ x ∈ opts, E.HintsOk x.2) → ∀ (Q : QueryEnv) (v : Int) (q : Option EsQuery), ∃ fs,
    es.fieldsOfParsed Q (.version v) q = some (.ok fs) ∧
    ListsFields PType.name ids (fun id p t => FoundBy Q es v q id ∧ ∃ a o, AsOf (s id).committed v a ∧
      OptionsAsOf (effectiveOptions (s id).committed opts) v o ∧ ParsedTypeAt E o a p t) fs

section
variable {E : ParseEnv} (hE : E.IgnoresOrder) (hS : E.ScalarHints) {db : PyStr} {m : Mongo} {s : Store}
  {hi : Option Int} {U : Unicode} {rs : List Record} {hn : NoPunsAmong U rs}
  (hl : LifeInv (fun id => (strictClass (placesOf U rs hn id)).named) db m s hi) (hm : DbOk db m) {es : ES (Option ParsedData)}
  (h2 : LatestOk es) (h3 : IndexesRecords (realParser E) db m ((m.data db).filter (fun r => r.version.isSome)) es)
include hE hS hl hm h2 h3

theorem answers_of_life : AnswersQueries E s (committedOptionsOf db m) es where
  asked hk Q field k hb := hl.asked hE hS hm h2 h3 hk Q field k hb
  text Q query field every v := hl.asked_text hE hS hm h2 h3 Q query field every v
  values hP Q field hk v := hl.asked_exists hE hS hm h2 h3 hP Q field hk v
  places Q v := hl.asked_by hE hS hm h2 h3 Q (.exists_ hasGeo) (fun a o => ∃ p g, PlaceAt E o a p g) (fun p p' h => exists_sim h hasGeo)
    (fun o a pd hw hf h => hasGeo_parse hE hS hw hf h) (fun a o h => PlaceAt.ne_nil h hS) v

theorem tells_of_life (hN : E.NumbersExist) (hnan : ∀ id, ∀ x ∈ (s id).committed, (Value.dict x.2).noNaN = true) {ids : List PyStr}
    (hids : ids.Nodup) (hall : ∀ id, (s id).committed ≠ [] → id ∈ ids) : TellsChanges E s (committedOptionsOf db m) ids es where
  versions := by
    obtain ⟨vs, k1, k2, k3, _, k5⟩ := hl.versions hE hS hN hm h2 h3 hnan
    exact ⟨vs, k1, k2, k3, k5⟩
  counts := by
    obtain ⟨c, k1, k2, k3⟩ := hl.counts hE hS hN hm h2 h3 hnan hids hall
    exact ⟨c, k1, k2, fun v => (k3 v).1, fun v n h => ((k3 v).2 n h).1, fun v n h => ((k3 v).2 n h).2⟩

theorem lists_of_life {ids : List PyStr} (hids : ids.Nodup) (hall : ∀ id, (s id).committed ≠ [] → id ∈ ids)
    (hd : ∀ id v a, AsOf (s id).committed v a → NestedNames '#' (.dict a))
    (hp : ∀ id v a, AsOf (s id).committed v a → NestedNames '_' (.dict a)) : ListsContents E s (committedOptionsOf db m) ids es where
  data Q v q := by
    obtain ⟨f, e1, _, e2⟩ := fieldsOf_filter (Q := Q) (es := es) (v := v) q
    rw [e1]
    simp only [e2]
    exact hl.data_fields hE hS hm h2 h3 v f hids hall (fun id a ha => hd id v a ha)
  parsed hH Q v q := by
    obtain ⟨f, _, e1, e2⟩ := fieldsOf_filter (Q := Q) (es := es) (v := v) q
    rw [e1]
    simp only [e2]
    exact hl.parsed_fields hE hS hm h2 h3 v f hids hall hH (fun id a ha => hp id v a ha)

end

/-- **C103**, as it should be: after any steps and a sync, queries find the records that have what is asked for according to histories that the
steps may give them. -/
def C103_full : Prop :=
  ∀ (E : ParseEnv), E.IgnoresOrder → E.ScalarHints → ∀ (U : Unicode), U.Sane → ∀ (maxDocs : Nat) (db : PyStr) (steps : List Step),
    OrderlySteps steps → committedOptionsOf db (afterSteps U db steps) ≠ [] →
    ∃ es s, sync (realParser E) maxDocs db false (afterSteps U db steps) [] = .ok es ∧ PossibleHistories U db steps s ∧
      AnswersQueries E s (committedOptionsOf db (afterSteps U db steps)) es

/-- **C103** (what holds) after one sync: if there are committed options, and no two data given for a record hold equal but different
scalars at the same place, then there are histories that the steps may give, such that all queries find the records that these histories say;
the versions and counts of changes are those of these histories (for data without NaN); and so are the fields (if no field name below the
root starts with `#` or `_`). -/
theorem C103_first_sync_partial (E : ParseEnv) (hE : E.IgnoresOrder) (hS : E.ScalarHints) (U : Unicode) (hU : U.Sane) (maxDocs : Nat)
    (db : PyStr) (steps : List Step) (ho : OrderlySteps steps) (hv : committedOptionsOf db (afterSteps U db steps) ≠ [])
    (hn : NoPunsAmong U (steps.flatMap Step.stream)) :
    ∃ es s, sync (realParser E) maxDocs db false (afterSteps U db steps) [] = .ok es ∧ PossibleHistories U db steps s ∧
      AnswersQueries E s (committedOptionsOf db (afterSteps U db steps)) es ∧
      ∀ ids : List PyStr, ids.Nodup → (∀ r ∈ steps.flatMap Step.stream, r.id ∈ ids) →
        (E.NumbersExist → (∀ r ∈ steps.flatMap Step.stream, (Value.dict (prepareRecordData U r)).noNaN = true) →
          TellsChanges E s (committedOptionsOf db (afterSteps U db steps)) ids es) ∧
        ((∀ r ∈ steps.flatMap Step.stream, NestedNames '#' (.dict (prepareRecordData U r)) ∧
            NestedNames '_' (.dict (prepareRecordData U r))) →
          ListsContents E s (committedOptionsOf db (afterSteps U db steps)) ids es) := by
  obtain ⟨es, hi, s, h1, hs, hl, hm, h2, h3⟩ := setup_first_steps E U hU maxDocs db steps ho hv hn
  refine ⟨es, s, h1, hs, answers_of_life hE hS hl hm h2 h3, fun ids hids hall => ?_⟩
  have hall' : ∀ id, (s id).committed ≠ [] → id ∈ ids := fun id h => by
    obtain ⟨x, hx⟩ := List.exists_mem_of_ne_nil _ h
    obtain ⟨r, hr, rfl, _⟩ := possible_from hs hx
    exact hall r hr
  refine ⟨fun hN hnan => tells_of_life hE hS hl hm h2 h3 hN (fun id x hx => ?_) hids hall',
    fun hk => lists_of_life hE hS hl hm h2 h3 hids hall' (fun id v a ⟨w, hw, _⟩ => ?_) (fun id v a ⟨w, hw, _⟩ => ?_)⟩
  · obtain ⟨r, hr, _, e⟩ := possible_from hs hx
    rw [e]; exact hnan r hr
  · obtain ⟨r, hr, _, rfl⟩ := possible_from hs hw
    exact (hk r hr).1
  · obtain ⟨r, hr, _, rfl⟩ := possible_from hs hw
    exact (hk r hr).2

/-- **C103** (what holds) after any steps and syncs between them, under the conditions of C70. -/
theorem C103_syncs_partial (E : ParseEnv) (hE : E.IgnoresOrder) (hS : E.ScalarHints) (U : Unicode) (hU : U.Sane) (maxDocs : Nat)
    (db : PyStr) (first : List Step) (parts : List (List Step)) (ho : OrderlySteps (first ++ parts.flatten))
    (hv : committedOptionsOf db (afterSteps U db first) ≠ []) (he : EachStepPart (NoUpdateDelete db) U db first parts)
    (hp : ∀ m ∈ stepStates U db first parts, NoPending db m)
    (hn : NoPunsAmong U ((first ++ parts.flatten).flatMap Step.stream)) :
    ∃ es s, runSyncs (realParser E) maxDocs db [] (stepStates U db first parts) = .ok es ∧
      PossibleHistories U db (first ++ parts.flatten) s ∧
      AnswersQueries E s (committedOptionsOf db (afterSteps U db (first ++ parts.flatten))) es ∧
      ∀ ids : List PyStr, ids.Nodup → (∀ r ∈ (first ++ parts.flatten).flatMap Step.stream, r.id ∈ ids) →
        (E.NumbersExist → (∀ r ∈ (first ++ parts.flatten).flatMap Step.stream, (Value.dict (prepareRecordData U r)).noNaN = true) →
          TellsChanges E s (committedOptionsOf db (afterSteps U db (first ++ parts.flatten))) ids es) ∧
        ((∀ r ∈ (first ++ parts.flatten).flatMap Step.stream, NestedNames '#' (.dict (prepareRecordData U r)) ∧
            NestedNames '_' (.dict (prepareRecordData U r))) →
          ListsContents E s (committedOptionsOf db (afterSteps U db (first ++ parts.flatten))) ids es) := by
  obtain ⟨es, hi, s, h1, hs, hl, hm, h2, h3⟩ := setup_syncs_steps E hE U hU maxDocs db first parts ho hv he hp hn
  refine ⟨es, s, h1, hs, answers_of_life hE hS hl hm h2 h3, fun ids hids hall => ?_⟩
  have hall' : ∀ id, (s id).committed ≠ [] → id ∈ ids := fun id h => by
    obtain ⟨x, hx⟩ := List.exists_mem_of_ne_nil _ h
    obtain ⟨r, hr, rfl, _⟩ := possible_from hs hx
    exact hall r hr
  refine ⟨fun hN hnan => tells_of_life hE hS hl hm h2 h3 hN (fun id x hx => ?_) hids hall',
    fun hk => lists_of_life hE hS hl hm h2 h3 hids hall' (fun id v a ⟨w, hw, _⟩ => ?_) (fun id v a ⟨w, hw, _⟩ => ?_)⟩
  · obtain ⟨r, hr, _, e⟩ := possible_from hs hx
    rw [e]; exact hnan r hr
  · obtain ⟨r, hr, _, rfl⟩ := possible_from hs hw
    exact (hk r hr).1
  · obtain ⟨r, hr, _, rfl⟩ := possible_from hs hw
    exact (hk r hr).2

set_option maxRecDepth 100000 in
/-- **C103 does not hold in full**: see `C77_refuted`; no call has to be stopped for it. -/
theorem C103_refuted : ¬ C103_full := by
  intro h
  have e : afterSteps asciiU ['x'] (exFilterPun.map .call) = afterCalls asciiU ['x'] exFilterPun := rfl
  obtain ⟨es, s, h1, hs, h2⟩ := h exEnv' exEnv'_order exEnv'_scalar asciiU asciiU_sane 10 ['x'] (exFilterPun.map .call)
    ⟨by decide +kernel, fun c hc => by
      obtain ⟨c', hc', rfl⟩ := List.mem_map.1 hc
      exact exFilterPun_orderly.noSpan c' hc'⟩ (by decide +kernel)
  have hs : s = ingested asciiU ['x'] exFilterPun := stepsSpec_calls exFilterPun Mongo.empty (by decide +kernel) hs
  subst hs
  rw [e] at h1 h2
  exact exFilterPun_wrong h1 (h2.asked (by decide +kernel))

set_option maxRecDepth 100000 in
/-- The steps of C76: a commit that dies after `a` was committed. The conditions hold; `a` is found with its new value at 2, and `c` at 4,
when the commit was repeated; 2 is a version although its commit never returned, and 3 is none since its commit raised. -/
example : NoPunsAmong asciiU (exStops.flatMap Step.stream) ∧ exEnv'.NumbersExist ∧
    (∀ r ∈ exStops.flatMap Step.stream, (Value.dict (prepareRecordData asciiU r)).noNaN = true) ∧
    (∀ r ∈ exStops.flatMap Step.stream, NestedNames '#' (.dict (prepareRecordData asciiU r)) ∧
      NestedNames '_' (.dict (prepareRecordData asciiU r))) ∧
    (∀ x ∈ committedOptionsOf ['x'] (afterSteps asciiU ['x'] exStops), 0 ≤ x.2.keywordLength) ∧
    (match sync (realParser exEnv') 10 ['x'] false (afterSteps asciiU ['x'] exStops) [], (Asked.number (.int 2)).query exQuery ['x'] with
      | .ok es, .ok q => decide (foundIds (es.searchFor exQuery (.version 1) q) = [] ∧
          foundIds (es.searchFor exQuery (.version 2) q) = [['a']] ∧
          (foundIds (es.searchFor exQuery (.version 4) q)).length = 2 ∧
          (foundIds (es.searchFor exQuery (.version 4) (.exists_ (existsQuery ['x'])))).length = 3 ∧ es.versions = some [1, 2, 4] ∧
          es.changedCounts = some [(1, 2), (2, 1), (4, 1)])
      | _, _ => false) = true := by
  refine ⟨noPuns_of_flat (by decide +kernel) (by decide +kernel), exEnv'_numbers, by decide +kernel, ?_, by decide +kernel, by decide +kernel⟩
  have h : ∀ r ∈ exStops.flatMap Step.stream, ∀ c ∈ ['#', '_'],
      (prepareRecordData asciiU r).all (fun kv => allKeys (fun k => k.head? != some c) kv.2) = true := by decide +kernel
  exact fun r hr => ⟨nestedNames_of_check (h r hr _ (by simp)), nestedNames_of_check (h r hr _ (by simp))⟩

end Splitgill.Props
