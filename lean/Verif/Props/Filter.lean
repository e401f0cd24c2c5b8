import Verif.Proof.Filter3
import Verif.Proof.Places
import Verif.Props.Life
/-!
# C77, C78: queries and fields, from calls of the API to what is found

`ingested U db calls` are the histories of the records according to what the calls were given and what they returned
(`Verif.Spec.Life`); what is asked for is described in `Verif.Spec.Query` and `Verif.Spec.Filter`.
-/

namespace Splitgill.Props
open Splitgill

/-! ## C77 -/

/-- **C77**, as it should be: after a sync, `search(v).filter(term_query(field, value))` and `search(v).filter(range_query(field, ...))` find
each record once whose data as of `v` has in the field what is asked for, and no other. -/
def C77_full : Prop :=
  ∀ (E : ParseEnv), E.IgnoresOrder → E.ScalarHints → ∀ (U : Unicode), U.Sane → ∀ (maxDocs : Nat) (db : PyStr) (calls : List ApiCall),
    Orderly calls → (∃ v, IsVersion (afterCalls U db calls) db v) → NoPending db (afterCalls U db calls) →
    (∀ x ∈ committedOptionsOf db (afterCalls U db calls), 0 ≤ x.2.keywordLength) →
    ∃ es, sync (realParser E) maxDocs db false (afterCalls U db calls) [] = .ok es ∧
      ∀ (Q : QueryEnv) (field : PyStr) (k : Asked), k.Bounded → ∃ q, k.query Q field = .ok q ∧
        ∀ v, (foundIds (es.searchFor Q (.version v) q)).Nodup ∧ ∀ id, id ∈ foundIds (es.searchFor Q (.version v) q) ↔
          HoldsAsOf (ingested U db calls) (committedOptionsOf db (afterCalls U db calls)) v id
            (fun a o => HasInField a field (k.holds Q E o))

/-- **C77** (what holds) after one sync: as above if no two data given for a record hold equal but different scalars at the same
place; records with uncommitted data are not found. -/
theorem C77_first_sync_partial (E : ParseEnv) (hE : E.IgnoresOrder) (hS : E.ScalarHints) (U : Unicode) (hU : U.Sane) (maxDocs : Nat)
    (db : PyStr) (calls : List ApiCall) (ho : Orderly calls) (hv : ∃ v, IsVersion (afterCalls U db calls) db v)
    (hk : ∀ x ∈ committedOptionsOf db (afterCalls U db calls), 0 ≤ x.2.keywordLength)
    (hn : NoPunsAmong U (calls.flatMap ApiCall.stream)) :
    ∃ es, sync (realParser E) maxDocs db false (afterCalls U db calls) [] = .ok es ∧
      ∀ (Q : QueryEnv) (field : PyStr) (k : Asked), k.Bounded → ∃ q, k.query Q field = .ok q ∧
        ∀ v, (foundIds (es.searchFor Q (.version v) q)).Nodup ∧ ∀ id, id ∈ foundIds (es.searchFor Q (.version v) q) ↔
          HoldsAsOf (ingested U db calls) (committedOptionsOf db (afterCalls U db calls)) v id
            (fun a o => HasInField a field (k.holds Q E o)) := by
  obtain ⟨es, hi, h1, hl, hm, h2, h3⟩ := setup_first E U hU maxDocs db calls ho hv hn
  exact ⟨es, h1, fun Q field k hb => hl.asked hE hS hm h2 h3 hk Q field k hb⟩

/-- **C77** (what holds) after any calls and syncs between them, under the conditions of C70. -/
theorem C77_syncs_partial (E : ParseEnv) (hE : E.IgnoresOrder) (hS : E.ScalarHints) (U : Unicode) (hU : U.Sane) (maxDocs : Nat)
    (db : PyStr) (first : List ApiCall) (parts : List (List ApiCall)) (ho : Orderly (first ++ parts.flatten))
    (hv : ∃ v, IsVersion (afterCalls U db first) db v) (he : EachPart (NoUpdateDelete db) U db first parts)
    (hp : ∀ m ∈ statesOf U db first parts, NoPending db m)
    (hk : ∀ x ∈ committedOptionsOf db (afterCalls U db (first ++ parts.flatten)), 0 ≤ x.2.keywordLength)
    (hn : NoPunsAmong U ((first ++ parts.flatten).flatMap ApiCall.stream)) :
    ∃ es, runSyncs (realParser E) maxDocs db [] (statesOf U db first parts) = .ok es ∧
      ∀ (Q : QueryEnv) (field : PyStr) (k : Asked), k.Bounded → ∃ q, k.query Q field = .ok q ∧
        ∀ v, (foundIds (es.searchFor Q (.version v) q)).Nodup ∧ ∀ id, id ∈ foundIds (es.searchFor Q (.version v) q) ↔
          HoldsAsOf (ingested U db (first ++ parts.flatten)) (committedOptionsOf db (afterCalls U db (first ++ parts.flatten))) v id
            (fun a o => HasInField a field (k.holds Q E o)) := by
  obtain ⟨es, hi, h1, hl, hm, h2, h3, _⟩ := setup_syncs E hE U hU maxDocs db first parts ho hv he hp hn
  exact ⟨es, h1, fun Q field k hb => hl.asked hE hS hm h2 h3 hk Q field k hb⟩

/-- **C77** for `exists_query`, after one sync, whatever the data: the records are found whose data as of `v` has a value in the field or inside
it. -/
theorem C77_exists_first_sync (E : ParseEnv) (hE : E.IgnoresOrder) (hS : E.ScalarHints) (hP : E.PlacesHaveValues) (U : Unicode)
    (hU : U.Sane) (maxDocs : Nat) (db : PyStr) (calls : List ApiCall) (ho : Orderly calls)
    (hv : ∃ v, IsVersion (afterCalls U db calls) db v) :
    ∃ es, sync (realParser E) maxDocs db false (afterCalls U db calls) [] = .ok es ∧
      ∀ (Q : QueryEnv) (field : PyStr), (∀ k ∈ splitDots field, FieldName k) → ∀ v,
        (foundIds (es.searchFor Q (.version v) (.exists_ (existsQuery field)))).Nodup ∧
        ∀ id, id ∈ foundIds (es.searchFor Q (.version v) (.exists_ (existsQuery field))) ↔
          (ingested U db calls id).pending = none ∧ ∃ a, AsOf (ingested U db calls id).committed v a ∧
            ∃ p x, fieldPath p = field ∧ getAt p (.dict a) = some x ∧ HasValue x := by
  obtain ⟨w, hw⟩ := hv
  have hm := life_dbOk ho hw
  obtain ⟨es, h1, h2, h3⟩ := C30_first_sync (realParser E) maxDocs db _ hm
  have hl := life (K := fun _ => plainClass.named) (U := U) (db := db) (fun c _ => fits_named_plain hU c.stream) ho
  refine ⟨es, h1, fun Q field hk v => ?_⟩
  have h := hl.toLifeInv.asked_equal hE hS hm h2 h3 Q (.exists_ (existsQuery field))
    (fun a _ => ∃ p x, fieldPath p = field ∧ getAt p (.dict a) = some x ∧ HasValue x) (fun p p' h => exists_sim h (existsQuery field))
    (fun o a pd hw hf h => exists_iff hP hw hf h hk) (fun o a b h => hasValue_sim h) (fun a _ h => hasValue_ne_nil h) v
  refine ⟨h.1, fun id => (h.2 id).trans ?_⟩
  constructor
  · rintro ⟨h1, a, o, h2, _, h3⟩
    exact ⟨h1, a, h2, h3⟩
  · rintro ⟨h1, a, h2, h3⟩
    obtain ⟨o, ho⟩ := exists_optionsAsOf (effectiveOptions_ne_nil (ingested U db calls id).committed hm.options.nonempty) v
    exact ⟨h1, a, o, h2, ho, h3⟩

/-- **C77** for `exists_query`, after any calls and syncs between them. -/
theorem C77_exists_syncs_partial (E : ParseEnv) (hE : E.IgnoresOrder) (hS : E.ScalarHints) (hP : E.PlacesHaveValues) (U : Unicode)
    (hU : U.Sane) (maxDocs : Nat) (db : PyStr) (first : List ApiCall) (parts : List (List ApiCall))
    (ho : Orderly (first ++ parts.flatten)) (hv : ∃ v, IsVersion (afterCalls U db first) db v)
    (he : EachPart (NoUpdateDelete db) U db first parts) (hp : ∀ m ∈ statesOf U db first parts, NoPending db m)
    (hn : NoPunsAmong U ((first ++ parts.flatten).flatMap ApiCall.stream)) :
    ∃ es, runSyncs (realParser E) maxDocs db [] (statesOf U db first parts) = .ok es ∧
      ∀ (Q : QueryEnv) (field : PyStr), (∀ k ∈ splitDots field, FieldName k) → ∀ v,
        (foundIds (es.searchFor Q (.version v) (.exists_ (existsQuery field)))).Nodup ∧
        ∀ id, id ∈ foundIds (es.searchFor Q (.version v) (.exists_ (existsQuery field))) ↔
          ∃ a, AsOf (ingested U db (first ++ parts.flatten) id).committed v a ∧
            ∃ p x, fieldPath p = field ∧ getAt p (.dict a) = some x ∧ HasValue x := by
  obtain ⟨es, hi, h1, hl, hm, h2, h3, h4⟩ := setup_syncs E hE U hU maxDocs db first parts ho hv he hp hn
  refine ⟨es, h1, fun Q field hk v => ?_⟩
  obtain ⟨g1, g2⟩ := hl.asked_exists hE hS hm h2 h3 hP Q field hk v
  exact ⟨g1, fun id => by rw [g2 id, h4 id]; simp⟩

/-- **C77** for `id_query(x)`, after one sync: the records are found that exist at `v` and whose id, without control characters and
cut to the keyword length, has the same keyword as `x`. -/
theorem C77_id_partial (E : ParseEnv) (hE : E.IgnoresOrder) (hS : E.ScalarHints) (U : Unicode) (hU : U.Sane) (maxDocs : Nat)
    (db : PyStr) (calls : List ApiCall) (ho : Orderly calls) (hv : ∃ v, IsVersion (afterCalls U db calls) db v)
    (hk : ∀ x ∈ committedOptionsOf db (afterCalls U db calls), 0 ≤ x.2.keywordLength)
    (hn : NoPunsAmong U (calls.flatMap ApiCall.stream)) :
    ∃ es, sync (realParser E) maxDocs db false (afterCalls U db calls) [] = .ok es ∧
      ∀ (Q : QueryEnv) (x : PyStr), ∃ q, idQuery Q x = .ok q ∧
        ∀ v id, id ∈ foundIds (es.searchFor Q (.version v) (.term q)) ↔
          HoldsAsOf (ingested U db calls) (committedOptionsOf db (afterCalls U db calls)) v id (fun a o => a ≠ [] ∧
            storedId U ⟨id, []⟩ ≠ [] ∧ Q.normalise ((storedId U ⟨id, []⟩).take o.keywordLength.toNat) = Q.normalise x) := by
  obtain ⟨es, h1, h2⟩ := C77_first_sync_partial E hE hS U hU maxDocs db calls ho hv hk hn
  refine ⟨es, h1, fun Q x => ⟨_, rfl, fun v id => ?_⟩⟩
  obtain ⟨q, hq, h3⟩ := h2 Q dataIdField (.string x) trivial
  cases hq
  rw [(h3 v).2 id]
  unfold HoldsAsOf
  refine and_congr_right fun _ => exists_congr fun a => exists_congr fun o => and_congr_right fun ha => and_congr_right fun _ => ?_
  obtain ⟨r, _, rfl, rfl⟩ := ingested_asOf U db calls ha
  exact hasInField_id hU

/-- `{"x": 1}` and then `{"x": True, "y": 2}`, with options for which no string is a boolean. -/
def exFilterPun : List ApiCall := exPun1 ++ exPun3

set_option maxRecDepth 100000 in
/-- After these calls the record does not hold `True` at version 2. -/
theorem exFilterPun_not : ¬ HoldsAsOf (ingested asciiU ['x'] exFilterPun) (committedOptionsOf ['x'] (afterCalls asciiU ['x'] exFilterPun)) 2 ['a']
    (fun a o => HasInField a ['x'] ((Asked.boolean true).holds exQuery exEnv' o)) := by
  rintro ⟨_, a, o, ha, ho, p, x, g1, g2, g3, g4⟩
  have e : (ingested asciiU ['x'] exFilterPun ['a']).committed =
    [(4, [(['x'], .bool true), (['y'], .int 2), ("_id".toList, .str ['a'])]), (2, [(['x'], .int 1), ("_id".toList, .str ['a'])])] := by
    decide +kernel
  rw [e] at ha
  have ha' : a = [(['x'], .int 1), ("_id".toList, .str ['a'])] := by
    obtain ⟨w, hw, hle, _⟩ := ha
    simp only [List.mem_cons, Prod.mk.injEq, List.not_mem_nil, or_false] at hw
    rcases hw with ⟨rfl, _⟩ | ⟨rfl, rfl⟩
    · omega
    · rfl
  subst ha'
  have hopts : ∀ x ∈ committedOptionsOf ['x'] (afterCalls asciiU ['x'] exFilterPun), x.2.trueValues = [] := by decide +kernel
  have ho' : o.trueValues = [] ∧ o.falseValues = [] := by
    have hopts' : ∀ x ∈ committedOptionsOf ['x'] (afterCalls asciiU ['x'] exFilterPun), x.2.falseValues = [] := by decide +kernel
    rcases ho with ⟨w, hw, _⟩ | ⟨_, w, hw, _⟩ <;> exact ⟨hopts _ (List.mem_filter.1 hw).1, hopts' _ (List.mem_filter.1 hw).1⟩
  have hx : ∀ b, x ≠ .bool b := by
    rintro b rfl
    cases p with
    | nil => cases g2
    | cons c p =>
      cases c with
      | idx i => cases g2
      | key k =>
        rw [getAt] at g2
        obtain ⟨y, hy, g2⟩ := Option.bind_eq_some_iff.1 g2
        have := aget_mem hy
        simp only [List.mem_cons, Prod.mk.injEq, List.not_mem_nil, or_false] at this
        rcases this with ⟨_, rfl⟩ | ⟨_, rfl⟩ <;> cases p <;> simp [getAt] at g2
  have g4 : boolOf exEnv' o x = some true := g4
  have : boolOf exEnv' o x = none := by
    unfold boolOf
    split
    · exact absurd rfl (hx _)
    · simp [ho'.1, ho'.2]
  rw [this] at g4
  cases g4

set_option maxRecDepth 100000 in
/-- After these calls and a sync, `term_query("x", True)` does not find the records that hold `True`. -/
theorem exFilterPun_wrong {es : ES (Option ParsedData)}
    (h1 : sync (realParser exEnv') 10 ['x'] false (afterCalls asciiU ['x'] exFilterPun) [] = .ok es)
    (h2 : ∀ (Q : QueryEnv) (field : PyStr) (k : Asked), k.Bounded → ∃ q, k.query Q field = .ok q ∧
        ∀ v, (foundIds (es.searchFor Q (.version v) q)).Nodup ∧ ∀ id, id ∈ foundIds (es.searchFor Q (.version v) q) ↔
          HoldsAsOf (ingested asciiU ['x'] exFilterPun) (committedOptionsOf ['x'] (afterCalls asciiU ['x'] exFilterPun)) v id
            (fun a o => HasInField a field (k.holds Q exEnv' o))) : False := by
  have hes : exIndexed exFilterPun = es := by unfold exIndexed; rw [h1]
  subst hes
  obtain ⟨q, hq, h3⟩ := h2 exQuery ['x'] (.boolean true) trivial
  have hf : ['a'] ∈ foundIds ((exIndexed exFilterPun).searchFor exQuery (.version 2) q) := by
    cases hq
    decide +kernel
  exact exFilterPun_not (((h3 2).2 ['a']).1 hf)

theorem exFilterPun_orderly : Orderly exFilterPun :=
  ⟨by decide +kernel, by
    intro c hc
    simp only [exFilterPun, exPun1, exPun3, List.cons_append, List.nil_append, List.mem_cons, List.not_mem_nil, or_false] at hc
    rcases hc with rfl | rfl | rfl <;> unfold NoSpan <;> decide⟩

set_option maxRecDepth 100000 in
/-- **C77 does not hold in full**: the older version is indexed with `True` (C68), so `term_query("x", True)` finds the record at the version at
which it holds `1`. -/
theorem C77_refuted : ¬ C77_full := by
  intro h
  obtain ⟨es, h1, h2⟩ := h exEnv' exEnv'_order exEnv'_scalar asciiU asciiU_sane 10 ['x'] exFilterPun
    exFilterPun_orderly
    ⟨1, .inr ⟨(afterCalls asciiU ['x'] exFilterPun).options.head (by decide +kernel), by decide +kernel, by decide +kernel, by decide +kernel⟩⟩
    (by
      have : ∀ r ∈ (afterCalls asciiU ['x'] exFilterPun).data ['x'], r.version ≠ none := by decide +kernel
      exact this)
    (by decide +kernel)
  exact exFilterPun_wrong h1 h2

/-! ## C78 -/

/-- **C78**, as it should be: after a sync, `get_data_fields(v, query)` lists exactly the fields that the data as of `v` of the records has that the
search finds, and counts these records. -/
def C78_full : Prop :=
  ∀ (E : ParseEnv), E.IgnoresOrder → E.ScalarHints → ∀ (U : Unicode), U.Sane → ∀ (maxDocs : Nat) (db : PyStr) (calls : List ApiCall),
    Orderly calls → (∃ v, IsVersion (afterCalls U db calls) db v) →
    NoPunsAmong U (calls.flatMap ApiCall.stream) → ∀ (ids : List PyStr), ids.Nodup →
    (∀ r ∈ calls.flatMap ApiCall.stream, r.id ∈ ids) →
    ∃ es, sync (realParser E) maxDocs db false (afterCalls U db calls) [] = .ok es ∧
      ∀ (Q : QueryEnv) (v : Int) (q : Option EsQuery), ∃ fs, es.fieldsOfData Q (.version v) q = some (.ok fs) ∧
        ListsFields DType.name ids (fun id p t => FoundBy Q es v q id ∧
          ∃ a, AsOf (ingested U db calls id).committed v a ∧ DataTypeAt a p t) (fs.map DataField.toFieldCounts) ∧ LinksFields fs

theorem fieldsOf_filter {Q : QueryEnv} {es : ES (Option ParsedData)} {v : Int} (q : Option EsQuery) :
    ∃ f : Doc (Option ParsedData) → Bool,
      es.fieldsOfData Q (.version v) q = getDataFields ((((es.search (.version v)).run es).filter f).map Doc.dataTypes) ∧
      es.fieldsOfParsed Q (.version v) q = getParsedFields ((((es.search (.version v)).run es).filter f).map Doc.parsedTypes) ∧
      ∀ id, FoundBy Q es v q id ↔ id ∈ foundIds (((es.search (.version v)).run es).filter f) := by
  cases q with
  | some q => exact ⟨fun d => q.finds Q d, rfl, rfl, fun id => Iff.rfl⟩
  | none =>
    have e : ((es.search (.version v)).run es).filter (fun _ => true) = (es.search (.version v)).run es :=
      List.filter_eq_self.2 (fun _ _ => rfl)
    refine ⟨fun _ => true, by rw [e]; rfl, by rw [e]; rfl, fun id => ?_⟩
    rw [e]
    simp only [FoundBy, foundIds, List.mem_map]
    constructor
    · intro h
      obtain ⟨d, hd⟩ := List.exists_mem_of_ne_nil _ h
      exact ⟨d, mem_found_iff.1 hd⟩
    · rintro ⟨d, hd⟩
      exact List.ne_nil_of_mem (mem_found_iff.2 hd)

/-- **C78** for the types of the data, after one sync (what holds): as above if no field name below the root starts with `#`. -/
theorem C78_data_fields_partial (E : ParseEnv) (hE : E.IgnoresOrder) (hS : E.ScalarHints) (U : Unicode) (hU : U.Sane) (maxDocs : Nat)
    (db : PyStr) (calls : List ApiCall) (ho : Orderly calls) (hv : ∃ v, IsVersion (afterCalls U db calls) db v)
    (hn : NoPunsAmong U (calls.flatMap ApiCall.stream)) (ids : List PyStr) (hids : ids.Nodup)
    (hall : ∀ r ∈ calls.flatMap ApiCall.stream, r.id ∈ ids)
    (hnames : ∀ r ∈ calls.flatMap ApiCall.stream, NestedNames '#' (.dict (prepareRecordData U r))) :
    ∃ es, sync (realParser E) maxDocs db false (afterCalls U db calls) [] = .ok es ∧
      ∀ (Q : QueryEnv) (v : Int) (q : Option EsQuery), ∃ fs, es.fieldsOfData Q (.version v) q = some (.ok fs) ∧
        ListsFields DType.name ids (fun id p t => FoundBy Q es v q id ∧
          ∃ a, AsOf (ingested U db calls id).committed v a ∧ DataTypeAt a p t) (fs.map DataField.toFieldCounts) ∧ LinksFields fs := by
  obtain ⟨es, hi, h1, hl, hm, h2, h3⟩ := setup_first E U hU maxDocs db calls ho hv hn
  refine ⟨es, h1, fun Q v q => ?_⟩
  obtain ⟨f, e1, _, e2⟩ := fieldsOf_filter (Q := Q) (es := es) (v := v) q
  rw [e1]
  simp only [e2]
  refine hl.data_fields hE hS hm h2 h3 v f hids (fun id h => ?_) (fun id a ha => ?_)
  · obtain ⟨x, hx⟩ := List.exists_mem_of_ne_nil _ h
    obtain ⟨r, hr, rfl, _⟩ := ingested_from U db calls hx
    exact hall r hr
  · obtain ⟨r, hr, _, rfl⟩ := ingested_asOf U db calls ha
    exact hnames r hr

/-- **C78** for the types of the data, after any calls and syncs between them. -/
theorem C78_data_fields_syncs_partial (E : ParseEnv) (hE : E.IgnoresOrder) (hS : E.ScalarHints) (U : Unicode) (hU : U.Sane) (maxDocs : Nat)
    (db : PyStr) (first : List ApiCall) (parts : List (List ApiCall)) (ho : Orderly (first ++ parts.flatten))
    (hv : ∃ v, IsVersion (afterCalls U db first) db v) (he : EachPart (NoUpdateDelete db) U db first parts)
    (hp : ∀ m ∈ statesOf U db first parts, NoPending db m)
    (hn : NoPunsAmong U ((first ++ parts.flatten).flatMap ApiCall.stream)) (ids : List PyStr) (hids : ids.Nodup)
    (hall : ∀ r ∈ (first ++ parts.flatten).flatMap ApiCall.stream, r.id ∈ ids)
    (hnames : ∀ r ∈ (first ++ parts.flatten).flatMap ApiCall.stream, NestedNames '#' (.dict (prepareRecordData U r))) :
    ∃ es, runSyncs (realParser E) maxDocs db [] (statesOf U db first parts) = .ok es ∧
      ∀ (Q : QueryEnv) (v : Int) (q : Option EsQuery), ∃ fs, es.fieldsOfData Q (.version v) q = some (.ok fs) ∧
        ListsFields DType.name ids (fun id p t => FoundBy Q es v q id ∧
          ∃ a, AsOf (ingested U db (first ++ parts.flatten) id).committed v a ∧ DataTypeAt a p t) (fs.map DataField.toFieldCounts) ∧
        LinksFields fs := by
  obtain ⟨es, hi, h1, hl, hm, h2, h3, _⟩ := setup_syncs E hE U hU maxDocs db first parts ho hv he hp hn
  refine ⟨es, h1, fun Q v q => ?_⟩
  obtain ⟨f, e1, _, e2⟩ := fieldsOf_filter (Q := Q) (es := es) (v := v) q
  rw [e1]
  simp only [e2]
  refine hl.data_fields hE hS hm h2 h3 v f hids (fun id h => ?_) (fun id a ha => ?_)
  · obtain ⟨x, hx⟩ := List.exists_mem_of_ne_nil _ h
    obtain ⟨r, hr, rfl, _⟩ := ingested_from U db _ hx
    exact hall r hr
  · obtain ⟨r, hr, _, rfl⟩ := ingested_asOf U db _ ha
    exact hnames r hr

/-- **C78** for the types that the data is indexed as, after one sync (what holds): if no field name below the root starts with `_`. -/
theorem C78_parsed_fields_partial (E : ParseEnv) (hE : E.IgnoresOrder) (hS : E.ScalarHints) (U : Unicode) (hU : U.Sane) (maxDocs : Nat)
    (db : PyStr) (calls : List ApiCall) (ho : Orderly calls) (hv : ∃ v, IsVersion (afterCalls U db calls) db v)
    (hH : ∀ x ∈ committedOptionsOf db (afterCalls U db calls), E.HintsOk x.2)
    (hn : NoPunsAmong U (calls.flatMap ApiCall.stream)) (ids : List PyStr) (hids : ids.Nodup)
    (hall : ∀ r ∈ calls.flatMap ApiCall.stream, r.id ∈ ids)
    (hnames : ∀ r ∈ calls.flatMap ApiCall.stream, NestedNames '_' (.dict (prepareRecordData U r))) :
    ∃ es, sync (realParser E) maxDocs db false (afterCalls U db calls) [] = .ok es ∧
      ∀ (Q : QueryEnv) (v : Int) (q : Option EsQuery), ∃ fs, es.fieldsOfParsed Q (.version v) q = some (.ok fs) ∧
        ListsFields PType.name ids (fun id p t => FoundBy Q es v q id ∧
          ∃ a o, AsOf (ingested U db calls id).committed v a ∧
            OptionsAsOf (effectiveOptions (ingested U db calls id).committed (committedOptionsOf db (afterCalls U db calls))) v o ∧
            ParsedTypeAt E o a p t) fs := by
  obtain ⟨es, hi, h1, hl, hm, h2, h3⟩ := setup_first E U hU maxDocs db calls ho hv hn
  refine ⟨es, h1, fun Q v q => ?_⟩
  obtain ⟨f, _, e1, e2⟩ := fieldsOf_filter (Q := Q) (es := es) (v := v) q
  rw [e1]
  simp only [e2]
  refine hl.parsed_fields hE hS hm h2 h3 v f hids (fun id h => ?_) hH (fun id a ha => ?_)
  · obtain ⟨x, hx⟩ := List.exists_mem_of_ne_nil _ h
    obtain ⟨r, hr, rfl, _⟩ := ingested_from U db calls hx
    exact hall r hr
  · obtain ⟨r, hr, _, rfl⟩ := ingested_asOf U db calls ha
    exact hnames r hr

/-- **C78** for the types that the data is indexed as, after any calls and syncs between them. -/
theorem C78_parsed_fields_syncs_partial (E : ParseEnv) (hE : E.IgnoresOrder) (hS : E.ScalarHints) (U : Unicode) (hU : U.Sane)
    (maxDocs : Nat) (db : PyStr) (first : List ApiCall) (parts : List (List ApiCall)) (ho : Orderly (first ++ parts.flatten))
    (hv : ∃ v, IsVersion (afterCalls U db first) db v) (he : EachPart (NoUpdateDelete db) U db first parts)
    (hp : ∀ m ∈ statesOf U db first parts, NoPending db m)
    (hH : ∀ x ∈ committedOptionsOf db (afterCalls U db (first ++ parts.flatten)), E.HintsOk x.2)
    (hn : NoPunsAmong U ((first ++ parts.flatten).flatMap ApiCall.stream)) (ids : List PyStr) (hids : ids.Nodup)
    (hall : ∀ r ∈ (first ++ parts.flatten).flatMap ApiCall.stream, r.id ∈ ids)
    (hnames : ∀ r ∈ (first ++ parts.flatten).flatMap ApiCall.stream, NestedNames '_' (.dict (prepareRecordData U r))) :
    ∃ es, runSyncs (realParser E) maxDocs db [] (statesOf U db first parts) = .ok es ∧
      ∀ (Q : QueryEnv) (v : Int) (q : Option EsQuery), ∃ fs, es.fieldsOfParsed Q (.version v) q = some (.ok fs) ∧
        ListsFields PType.name ids (fun id p t => FoundBy Q es v q id ∧
          ∃ a o, AsOf (ingested U db (first ++ parts.flatten) id).committed v a ∧
            OptionsAsOf (effectiveOptions (ingested U db (first ++ parts.flatten) id).committed
              (committedOptionsOf db (afterCalls U db (first ++ parts.flatten)))) v o ∧
            ParsedTypeAt E o a p t) fs := by
  obtain ⟨es, hi, h1, hl, hm, h2, h3, _⟩ := setup_syncs E hE U hU maxDocs db first parts ho hv he hp hn
  refine ⟨es, h1, fun Q v q => ?_⟩
  obtain ⟨f, _, e1, e2⟩ := fieldsOf_filter (Q := Q) (es := es) (v := v) q
  rw [e1]
  simp only [e2]
  refine hl.parsed_fields hE hS hm h2 h3 v f hids (fun id h => ?_) hH (fun id a ha => ?_)
  · obtain ⟨x, hx⟩ := List.exists_mem_of_ne_nil _ h
    obtain ⟨r, hr, rfl, _⟩ := ingested_from U db _ hx
    exact hall r hr
  · obtain ⟨r, hr, _, rfl⟩ := ingested_asOf U db _ ha
    exact hnames r hr

/-- A record with a list of a number and of a dict with a name that starts with `#`. -/
def exHash : List ApiCall :=
  [.ingest none [⟨['r'], [(.str ['a'], .list [.int 1, .dict [(.str "#e".toList, .int 1)]])]⟩] true 1]

set_option maxRecDepth 100000 in
/-- **C78 does not hold in full**: with one record, the field for the elements of `a` has the count 2 (C57). -/
theorem C78_refuted : ¬ C78_full := by
  intro h
  obtain ⟨es, h1, h2⟩ := h exEnv' exEnv'_order exEnv'_scalar asciiU asciiU_sane 10 ['x'] exHash
    ⟨by decide +kernel, by
      intro c hc
      simp only [exHash, List.mem_singleton] at hc
      subst hc; unfold NoSpan; decide⟩
    ⟨1, .inr ⟨(afterCalls asciiU ['x'] exHash).options.head (by decide +kernel), by decide +kernel, by decide +kernel, by decide +kernel⟩⟩
    (by
      intro r hr r' hr' _ p v w hv hw _ _ _
      simp only [exHash, List.flatMap_cons, List.flatMap_nil, ApiCall.stream, List.append_nil, List.mem_singleton] at hr hr'
      subst hr; subst hr'
      rw [hv] at hw
      exact Option.some.inj hw)
    [['r']] (by simp) (by decide +kernel)
  have hes : exIndexed exHash = es := by unfold exIndexed; rw [h1]
  subst hes
  obtain ⟨fs, h3, h4, _⟩ := h2 exQuery 1 none
  have hc : ((exIndexed exHash).fieldsOfData exQuery (.version 1) none).map (fun r => r.toOption.map (fun l => l.any (fun x => decide (x.count = 2)))) =
    some (some true) := by decide +kernel
  rw [h3] at hc
  have hc : fs.any (fun x => decide (x.count = 2)) = true := by simpa [Except.toOption] using hc
  rw [List.any_eq_true] at hc
  obtain ⟨f, hf, hf2⟩ := hc
  have hf2 : f.count = 2 := of_decide_eq_true hf2
  have hcount := h4.count f.toFieldCounts (List.mem_map_of_mem hf)
  rw [hf2] at hcount
  have hle : ∀ {α : Type} (l : List α) (P : α → Prop), howMany l P ≤ l.length := fun l P => List.length_filter_le _ _
  have h' := hle [['r']] (fun id => ∃ p t, (FoundBy exQuery (exIndexed exHash) 1 none id ∧
    ∃ a, AsOf (ingested asciiU ['x'] exHash id).committed 1 a ∧ DataTypeAt a p t) ∧ pathText p = f.toFieldCounts.path)
  rw [← hcount] at h'
  exact absurd h' (by decide)

/-- The indices of the example of C70 (`Verif.Props.EndToEnd`) after its syncs. -/
def exFilterES : ES (Option ParsedData) :=
  match runSyncs (realParser exEnv') 10 ['x'] [] (statesOf asciiU ['x'] exCalls1 exParts) with
  | .ok es => es
  | .error _ => []

/-- What a query finds in it. -/
def exFound (v : Int) (k : Asked) (field : PyStr) : Option (List PyStr) :=
  (k.query exQuery field).toOption.map (fun q => foundIds (exFilterES.searchFor exQuery (.version v) q))

set_option maxRecDepth 100000 in
/-- The other hypotheses of the theorems hold for the calls of that example (see there), and these records are found: `x` is 1
in `a` at version 1, and 2 at version 2. -/
example : (∀ x ∈ committedOptionsOf ['x'] (afterCalls asciiU ['x'] (exCalls1 ++ exParts.flatten)), 0 ≤ x.2.keywordLength) ∧
    (∀ r ∈ (exCalls1 ++ exParts.flatten).flatMap ApiCall.stream, r.id ∈ [['a'], ['b']]) ∧
    (∀ r ∈ (exCalls1 ++ exParts.flatten).flatMap ApiCall.stream,
      NestedNames '#' (.dict (prepareRecordData asciiU r)) ∧ NestedNames '_' (.dict (prepareRecordData asciiU r))) ∧
    exFound 1 (.number (.int 1)) ['x'] = some [['a']] ∧ exFound 2 (.number (.int 1)) ['x'] = some [] ∧
    exFound 2 (.number (.int 2)) ['x'] = some [['a']] := by
  refine ⟨by decide +kernel, by decide +kernel, ?_, by decide +kernel, by decide +kernel, by decide +kernel⟩
  intro r hr
  have hc : ∀ r ∈ (exCalls1 ++ exParts.flatten).flatMap ApiCall.stream, (prepareRecordData asciiU r).all (fun kv => kv.2.isScalar) = true := by
    decide +kernel
  have hnone : ∀ c, NestedNames c (.dict (prepareRecordData asciiU r)) := by
    intro c p d hp hd
    cases p with
    | nil => exact absurd rfl hp
    | cons a p =>
      cases a with
      | idx i => cases hd
      | key k =>
        rw [getAt] at hd
        obtain ⟨y, hy, hd⟩ := Option.bind_eq_some_iff.1 hd
        have hs := List.all_eq_true.1 (hc r hr) _ (aget_mem hy)
        cases p with
        | nil => cases hd; cases hs
        | cons a p => rw [getAt_scalar_cons hs] at hd; cases hd
  exact ⟨hnone _, hnone _⟩

/-- An environment without GeoJSON. -/
def exNoGeo : ParseEnv := { exEnv' with geojson := fun _ => none }

set_option maxRecDepth 100000 in
/-- The hypotheses of `C77_exists_first_sync` hold for calls that give `1` and then `True`: the record is found by `x` at both versions, by `y` at
the second only. -/
example : Orderly exFilterPun ∧ (∃ v, IsVersion (afterCalls asciiU ['x'] exFilterPun) ['x'] v) ∧
    foundIds ((exIndexed exFilterPun).searchFor exQuery (.version 2) (.exists_ (existsQuery ['x']))) = [['a']] ∧
    foundIds ((exIndexed exFilterPun).searchFor exQuery (.version 2) (.exists_ (existsQuery ['y']))) = [] ∧
    foundIds ((exIndexed exFilterPun).searchFor exQuery (.version 4) (.exists_ (existsQuery ['y']))) = [['a']] := by
  refine ⟨⟨by decide +kernel, ?_⟩, ⟨1, .inr ⟨(afterCalls asciiU ['x'] exFilterPun).options.head (by decide +kernel), by decide +kernel,
    by decide +kernel, by decide +kernel⟩⟩, by decide +kernel, by decide +kernel, by decide +kernel⟩
  intro c hc
  simp only [exFilterPun, exPun1, exPun3, List.cons_append, List.nil_append, List.mem_cons, List.not_mem_nil, or_false] at hc
  rcases hc with rfl | rfl | rfl <;> unfold NoSpan <;> decide

/-- The hints of the example, and an environment for the theorems on `exists_query`. -/
example : (∀ o, exEnv'.HintsOk o) ∧ exNoGeo.IgnoresOrder ∧ exNoGeo.ScalarHints ∧ exNoGeo.PlacesHaveValues ∧
    (∀ k ∈ splitDots "x.y".toList, FieldName k) := by
  have hint : ∀ lon lat r n g, exEnv'.hintGeo lon lat r n = some g → lat = .int 5 := by
    intro lon lat r n g h
    simp only [exEnv'] at h
    split at h
    · rfl
    · cases h
  refine ⟨?_, ⟨fun _ _ _ _ _ => rfl, exEnv'_order.hint⟩, exEnv'_scalar, ⟨fun d g h => ?_, ?_⟩, ?_⟩
  · intro o lon lat r n g h
    rw [hint _ _ _ _ _ h]
    exact ⟨by rfl, by intro d e; cases e⟩
  · have h' : (none : Option (PyStr × PyStr)) = some g := h
    cases h'
  · intro lon lat r n g h
    rw [hint lon lat r n g h]
    exact ⟨[], _, rfl, rfl⟩
  · have : splitDots "x.y".toList = [['x'], ['y']] := by decide +kernel
    rw [this]
    simp only [List.mem_cons, List.not_mem_nil, or_false, forall_eq_or_imp, forall_eq]
    exact ⟨by constructor <;> decide, by constructor <;> decide⟩

end Splitgill.Props
