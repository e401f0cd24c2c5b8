import Verif.Props.Repair
import Verif.Spec.Now
/-!
# C129: searches without a version
-/

namespace Splitgill.Props
open Splitgill

/-- From some version on, searching at a version is searching without one. -/
def SameFrom (es : ES (Option ParsedData)) (b : Int) : Prop := ∀ v, b ≤ v → found es (.version v) = found es .latest

theorem asOf_newest {α : Type} {l : List (Int × α)} {v : Int} (hv : ∀ w ∈ l.map Prod.fst, w ≤ v) (x : α) : AsOf l v x ↔ Newest l x :=
  ⟨fun ⟨w, h1, _, h3⟩ => ⟨w, h1, fun w' y h => h3 w' y h (hv w' (List.mem_map_of_mem h))⟩, fun h => h.asOf hv⟩

theorem optionsAsOf_newest {l : List (Int × ParsingOptions)} {v : Int} (hv : ∀ w ∈ l.map Prod.fst, w ≤ v) (o : ParsingOptions) :
    OptionsAsOf l v o ↔ Newest l o := by
  unfold OptionsAsOf
  rw [asOf_newest hv]
  constructor
  · rintro (h | ⟨h1, w, h2, _⟩)
    · exact h
    · have := h1 w o h2
      have := hv w (List.mem_map_of_mem h2)
      omega
  · exact .inl

theorem effective_le {hist : List (Int × Dict)} {opts : List (Int × ParsingOptions)} {v : Int} (hv : ∀ w ∈ opts.map Prod.fst, w ≤ v) :
    ∀ w ∈ (effectiveOptions hist opts).map Prod.fst, w ≤ v := by
  intro w hw
  obtain ⟨x, hx, rfl⟩ := List.mem_map.1 hw
  exact hv _ (List.mem_map_of_mem (List.mem_filter.1 hx).1)

theorem holdsNow_iff {s : Store} {opts : List (Int × ParsingOptions)} {v : Int} {id : PyStr} (h1 : ∀ w ∈ (s id).committed.map Prod.fst, w ≤ v)
    (h2 : ∀ w ∈ opts.map Prod.fst, w ≤ v) (P : Dict → ParsingOptions → Prop) : HoldsAsOf s opts v id P ↔ HoldsNow s opts id P := by
  unfold HoldsAsOf HoldsNow
  simp only [asOf_newest h1, optionsAsOf_newest (effective_le h2)]

theorem searchFor_same {es : ES (Option ParsedData)} {v : Int} (h : found es (.version v) = found es .latest) (Q : QueryEnv) (q : EsQuery) :
    es.searchFor Q (.version v) q = es.searchFor Q .latest q := by
  unfold ES.searchFor
  exact congrArg _ h

theorem foundDocs_same {es : ES (Option ParsedData)} {v : Int} (h : found es (.version v) = found es .latest) (Q : QueryEnv) :
    ∀ q : Option EsQuery, es.foundDocs Q (.version v) q = es.foundDocs Q .latest q
  | some q => searchFor_same h Q q
  | none => h

theorem fieldsOfData_eq {es : ES (Option ParsedData)} (Q : QueryEnv) (at_ : SearchAt) : ∀ q : Option EsQuery,
    es.fieldsOfData Q at_ q = getDataFields ((es.foundDocs Q at_ q).map Doc.dataTypes)
  | some _ => rfl
  | none => rfl

theorem fieldsOfParsed_eq {es : ES (Option ParsedData)} (Q : QueryEnv) (at_ : SearchAt) : ∀ q : Option EsQuery,
    es.fieldsOfParsed Q at_ q = getParsedFields ((es.foundDocs Q at_ q).map Doc.parsedTypes)
  | some _ => rfl
  | none => rfl

theorem foundBy_iff {Q : QueryEnv} {es : ES (Option ParsedData)} {v : Int} {id : PyStr} : ∀ {q : Option EsQuery},
    FoundBy Q es v q id ↔ id ∈ foundIds (es.foundDocs Q (.version v) q)
  | some _ => Iff.rfl
  | none => by
    show foundFor es (.version v) id ≠ [] ↔ _
    unfold foundFor foundIds ES.foundDocs
    rw [Ne, List.filter_eq_nil_iff, List.mem_map]
    unfold found
    constructor
    · intro h
      by_contra hc
      exact h fun d hd he => hc ⟨d, hd, by simpa using he⟩
    · rintro ⟨d, hd, he⟩ h
      exact h d hd (by simpa using he)

theorem listsFields_iff {T δ : Type} [DecidableEq T] {name : T → PyStr} {docs : List δ} {f g : δ → List PyStr → PyStr → Prop}
    {fs : List (FieldCounts T)} (h : ListsFields name docs f fs) (e : ∀ d ∈ docs, ∀ p t, f d p t ↔ g d p t) : ListsFields name docs g fs where
  once := h.once
  paths s := by
    rw [h.paths]
    constructor
    · rintro ⟨d, hd, p, t, a, b⟩; exact ⟨d, hd, p, t, (e d hd p t).1 a, b⟩
    · rintro ⟨d, hd, p, t, a, b⟩; exact ⟨d, hd, p, t, (e d hd p t).2 a, b⟩
  count x hx := by
    rw [h.count x hx]
    exact howMany_iff _ fun d hd => by simp only [e d hd]
  types x hx t := by
    rw [h.types x hx t]
    exact howMany_iff _ fun d hd => by simp only [e d hd]
  order := h.order

section
variable {E : ParseEnv} {U : Unicode} {rs : List Record} {s : Store} {opts : List (Int × ParsingOptions)} {es : ES (Option ParsedData)}
  (h : AnswersAll E U rs s opts es) {b : Int} (hb : SameFrom es b)
include h hb

theorem answersNow_of : AnswersNow E s opts es := by
  have key : ∀ id, ∃ v, b ≤ v ∧ (∀ w ∈ (s id).committed.map Prod.fst, w ≤ v) ∧ ∀ w ∈ opts.map Prod.fst, w ≤ v := by
    intro id
    obtain ⟨c, hc⟩ := exists_bound (b :: ((s id).committed.map Prod.fst ++ opts.map Prod.fst))
    exact ⟨c, hc b (by simp), fun w hw => hc w (by simp [hw]), fun w hw => hc w (by simp [hw])⟩
  refine ⟨fun hk Q field k hbd => ?_, fun Q query field every => ?_, fun hP Q field hk => ?_, fun Q => ?_⟩
  · obtain ⟨q, h1, h2⟩ := h.queries.asked hk Q field k hbd
    refine ⟨q, h1, by rw [← searchFor_same (hb b le_rfl)]; exact (h2 b).1, fun id => ?_⟩
    obtain ⟨v, k1, k2, k3⟩ := key id
    rw [← searchFor_same (hb v k1), (h2 v).2 id, holdsNow_iff k2 k3]
  · refine ⟨by rw [← searchFor_same (hb b le_rfl)]; exact (h.queries.text Q query field every b).1, fun id => ?_⟩
    obtain ⟨v, k1, k2, k3⟩ := key id
    rw [← searchFor_same (hb v k1), (h.queries.text Q query field every v).2 id, holdsNow_iff k2 k3]
  · refine ⟨by rw [← searchFor_same (hb b le_rfl)]; exact (h.queries.values hP Q field hk b).1, fun id => ?_⟩
    obtain ⟨v, k1, k2, k3⟩ := key id
    rw [← searchFor_same (hb v k1), (h.queries.values hP Q field hk v).2 id]
    simp only [asOf_newest k2]
  · refine ⟨by rw [← searchFor_same (hb b le_rfl)]; exact (h.queries.places Q b).1, fun id => ?_⟩
    obtain ⟨v, k1, k2, k3⟩ := key id
    rw [← searchFor_same (hb v k1), (h.queries.places Q v).2 id, holdsNow_iff k2 k3]

theorem listsNow_of {ids : List PyStr} (hids : ids.Nodup) (hall : ∀ r ∈ rs, r.id ∈ ids)
    (hk : ∀ r ∈ rs, NestedNames '#' (.dict (prepareRecordData U r)) ∧ NestedNames '_' (.dict (prepareRecordData U r)))
    (hH : ∀ x ∈ opts, E.HintsOk x.2) : ListsNow E s opts ids es := by
  intro Q q
  obtain ⟨v, hv⟩ := exists_bound (b :: (ids.flatMap (fun id => (s id).committed.map Prod.fst) ++ opts.map Prod.fst))
  have h1 : b ≤ v := hv b (by simp)
  have h2 : ∀ id ∈ ids, ∀ w ∈ (s id).committed.map Prod.fst, w ≤ v := fun id hid w hw =>
    hv w (List.mem_cons_of_mem _ (List.mem_append_left _ (List.mem_flatMap.2 ⟨id, hid, hw⟩)))
  have h3 : ∀ w ∈ opts.map Prod.fst, w ≤ v := fun w hw => hv w (List.mem_cons_of_mem _ (List.mem_append_right _ hw))
  have hc := h.contents ids hids hall hk
  obtain ⟨fs, a1, a2, a3⟩ := hc.data Q v q
  obtain ⟨gs, b1, b2⟩ := hc.parsed hH Q v q
  obtain ⟨fs', gs', c1, c2, c3, c4, c5, _⟩ := h.listings hk hH Q v q
  rw [a1] at c1; cases c1
  rw [b1] at c2; cases c2
  simp only [foundBy_iff] at a2 b2
  rw [fieldsOfData_eq] at a1
  rw [fieldsOfParsed_eq] at b1
  simp only [foundDocs_same (hb v h1)] at a1 a2 b1 b2 c5
  refine ⟨fs, gs, by rw [fieldsOfData_eq]; exact a1, by rw [fieldsOfParsed_eq]; exact b1, listsFields_iff a2 fun id hid p t => ?_, a3,
    listsFields_iff b2 fun id hid p t => ?_, c3, c4, c5⟩
  · simp only [asOf_newest (h2 id hid)]
  · simp only [asOf_newest (h2 id hid), optionsAsOf_newest (effective_le h3)]

end

/-- **C129** for every state of the indices that C103 and C101 speak of, also after repairs (C128): queries and listings without a version are about
the newest data. -/
theorem C129_now {E : ParseEnv} {U : Unicode} {rs : List Record} {s : Store} {opts : List (Int × ParsingOptions)} {es : ES (Option ParsedData)}
    (h : AnswersAll E U rs s opts es) : AnswersNow E s opts es ∧
      ∀ ids : List PyStr, ids.Nodup → (∀ r ∈ rs, r.id ∈ ids) →
        (∀ r ∈ rs, NestedNames '#' (.dict (prepareRecordData U r)) ∧ NestedNames '_' (.dict (prepareRecordData U r))) →
        (∀ x ∈ opts, E.HintsOk x.2) → ListsNow E s opts ids es := by
  obtain ⟨b, hb⟩ := h.newest
  exact ⟨answersNow_of h hb, fun ids hids hall hk hH => listsNow_of h hb hids hall hk hH⟩

/-- **C129** after one sync: after any calls, also ones that were stopped at any of their writes, queries without a version find the records that have
what is asked for in their newest data, each once, and the listings of fields without a version are those of the newest data. -/
theorem C129_first (E : ParseEnv) (hE : E.IgnoresOrder) (hS : E.ScalarHints) (U : Unicode) (hU : U.Sane) (maxDocs : Nat)
    (db : PyStr) (steps : List Step) (ho : OrderlySteps steps) (hv : committedOptionsOf db (afterSteps U db steps) ≠ [])
    (hn : NoPunsAmong U (steps.flatMap Step.stream)) :
    ∃ es s, sync (realParser E) maxDocs db false (afterSteps U db steps) [] = .ok es ∧ PossibleHistories U db steps s ∧
      AnswersNow E s (committedOptionsOf db (afterSteps U db steps)) es ∧
      ∀ ids : List PyStr, ids.Nodup → (∀ r ∈ steps.flatMap Step.stream, r.id ∈ ids) →
        (∀ r ∈ steps.flatMap Step.stream, NestedNames '#' (.dict (prepareRecordData U r)) ∧ NestedNames '_' (.dict (prepareRecordData U r))) →
        (∀ x ∈ committedOptionsOf db (afterSteps U db steps), E.HintsOk x.2) →
        ListsNow E s (committedOptionsOf db (afterSteps U db steps)) ids es := by
  obtain ⟨es, hi, s, h1, hs, hl, hm, h2, h3⟩ := setup_first_steps E U hU maxDocs db steps ho hv hn
  exact ⟨es, s, h1, hs, C129_now (answersAll_of_life hE hS hl hm h2 h3 (possible_from hs))⟩

set_option maxRecDepth 100000 in
/-- The hypotheses hold for the steps of C76, with a commit that dies after `a` was committed (`Verif.Props.CrashQueries`). `a` and `b` had the number
1 once: a query for 1 without a version finds only `c`, and one for 2 finds `a` and `b`; at version 1 it is different. The field `x` is listed for
three records. -/
example : OrderlySteps exStops ∧ (∀ x ∈ committedOptionsOf ['x'] (afterSteps asciiU ['x'] exStops), exEnv'.HintsOk x.2) ∧
    (match sync (realParser exEnv') 10 ['x'] false (afterSteps asciiU ['x'] exStops) [], (Asked.number (.int 1)).query exQuery ['x'],
        (Asked.number (.int 2)).query exQuery ['x'] with
      | .ok es, .ok q, .ok q' => decide (foundIds (es.searchFor exQuery .latest q) = [['c']] ∧
          foundIds (es.searchFor exQuery .latest q') = [['a'], ['b']] ∧ foundIds (es.searchFor exQuery (.version 1) q) = [['a'], ['b']] ∧
          (es.fieldsOfParsed exQuery .latest none).map (fun r => r.toOption.map (fun gs =>
            (gs.filter (fun g => g.path == ['x'])).map (fun g => (g.count, g.countOf .number)))) = some (some [(3, 3)]))
      | _, _, _ => false) = true :=
  ⟨exStops_orderly, fun x _ => exEnv'_hints x.2, by decide +kernel⟩

/-- **C129** after any steps and syncs between them: records are not changed and deleted between two syncs, and have nothing uncommitted at the
syncs. -/
theorem C129_syncs (E : ParseEnv) (hE : E.IgnoresOrder) (hS : E.ScalarHints) (U : Unicode) (hU : U.Sane) (maxDocs : Nat)
    (db : PyStr) (first : List Step) (parts : List (List Step)) (ho : OrderlySteps (first ++ parts.flatten))
    (hv : committedOptionsOf db (afterSteps U db first) ≠ []) (he : EachStepPart (NoUpdateDelete db) U db first parts)
    (hp : ∀ m ∈ stepStates U db first parts, NoPending db m)
    (hn : NoPunsAmong U ((first ++ parts.flatten).flatMap Step.stream)) :
    ∃ es s, runSyncs (realParser E) maxDocs db [] (stepStates U db first parts) = .ok es ∧
      PossibleHistories U db (first ++ parts.flatten) s ∧
      AnswersNow E s (committedOptionsOf db (afterSteps U db (first ++ parts.flatten))) es ∧
      ∀ ids : List PyStr, ids.Nodup → (∀ r ∈ (first ++ parts.flatten).flatMap Step.stream, r.id ∈ ids) →
        (∀ r ∈ (first ++ parts.flatten).flatMap Step.stream,
          NestedNames '#' (.dict (prepareRecordData U r)) ∧ NestedNames '_' (.dict (prepareRecordData U r))) →
        (∀ x ∈ committedOptionsOf db (afterSteps U db (first ++ parts.flatten)), E.HintsOk x.2) →
        ListsNow E s (committedOptionsOf db (afterSteps U db (first ++ parts.flatten))) ids es := by
  obtain ⟨es, hi, s, h1, hs, hl, hm, h2, h3⟩ := setup_syncs_steps E hE U hU maxDocs db first parts ho hv he hp hn
  exact ⟨es, s, h1, hs, C129_now (answersAll_of_life hE hS hl hm h2 h3 (possible_from hs))⟩

/-- **C129** after a repair: whatever was in the indices, under the conditions of C128. -/
theorem C129_repaired (E : ParseEnv) (hE : E.IgnoresOrder) (hS : E.ScalarHints) (U : Unicode) (hU : U.Sane) (maxDocs : Nat)
    (db : PyStr) (steps : List Step) (ho : OrderlySteps steps) (hv : committedOptionsOf db (afterSteps U db steps) ≠ [])
    (hd : hasData db (afterSteps U db steps) = true) (hn : NoPunsAmong U (steps.flatMap Step.stream))
    (es : ES (Option ParsedData)) (hok : LatestOk es) (hx : LatestExists db (afterSteps U db steps) es) :
    ∃ es' s, sync (realParser E) maxDocs db true (afterSteps U db steps) es = .ok es' ∧ PossibleHistories U db steps s ∧
      AnswersNow E s (committedOptionsOf db (afterSteps U db steps)) es' ∧
      ∀ ids : List PyStr, ids.Nodup → (∀ r ∈ steps.flatMap Step.stream, r.id ∈ ids) →
        (∀ r ∈ steps.flatMap Step.stream, NestedNames '#' (.dict (prepareRecordData U r)) ∧ NestedNames '_' (.dict (prepareRecordData U r))) →
        (∀ x ∈ committedOptionsOf db (afterSteps U db steps), E.HintsOk x.2) →
        ListsNow E s (committedOptionsOf db (afterSteps U db steps)) ids es' := by
  obtain ⟨es', s, h1, hs, ha⟩ := C128_resync_partial E hE hS U hU maxDocs db steps ho hv hd hn es hok hx
  exact ⟨es', s, h1, hs, C129_now ha⟩

end Splitgill.Props
