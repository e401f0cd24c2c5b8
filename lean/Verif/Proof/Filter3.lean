import Verif.Proof.Filter2
import Verif.Proof.EndToEnd3
import Verif.Props.EndToEnd
import Verif.Props.Query2
/-!
# Lemmas: where the data of a history comes from; the situations after syncs
-/

namespace Splitgill
open Splitgill.Props

/-- All data of the histories was given for the record. -/
def Store.From (U : Unicode) (rs : List Record) (s : Store) : Prop :=
  ∀ id d, (d ∈ (s id).committed.map Prod.snd ∨ (s id).pending = some d) → ∃ r ∈ rs, r.id = id ∧ d = prepareRecordData U r

theorem Store.From.ingest {U : Unicode} {rs : List Record} (mf : Option PyStr) : ∀ (l : List Record) {s : Store}, s.From U rs →
    (∀ r ∈ l, r ∈ rs) → (s.ingest U mf l).From U rs
  | [], _, h, _ => h
  | r :: l, s, h, hl => by
    refine Store.From.ingest mf l (s := _) (fun id d hd => ?_) (fun r hr => hl r (List.mem_cons_of_mem _ hr))
    dsimp only at hd
    split at hd
    · rename_i e
      have key : (s id).ingest mf (prepareRecordData U r) = { (s id) with pending := ((s id).ingest mf (prepareRecordData U r)).pending } ∧
          ∀ x, ((s id).ingest mf (prepareRecordData U r)).pending = some x → x = prepareRecordData U r := by
        unfold Hist.ingest
        split
        · refine ⟨rfl, fun x hx => ?_⟩
          dsimp only at hx
          split at hx <;> simp at hx
          exact hx.symm
        · refine ⟨rfl, fun x hx => ?_⟩
          dsimp only at hx
          split at hx <;> simp at hx
          exact hx.symm
      rcases hd with hd | hd
      · rw [key.1] at hd
        exact h id d (.inl hd)
      · exact ⟨r, hl r (by simp), e.symm, key.2 d hd⟩
    · exact h id d hd

theorem Store.From.commit {U : Unicode} {rs : List Record} {s : Store} (h : s.From U rs) (v : Int) :
    Store.From U rs (fun id => (s id).commit v) := by
  intro id d hd
  dsimp only at hd
  unfold Hist.commit at hd
  split at hd
  · exact h id d hd
  · rename_i e
    simp only [List.map_cons, List.mem_cons, reduceCtorEq, or_false] at hd
    rcases hd with rfl | hd
    · exact h id _ (.inr e)
    · exact h id d (.inl hd)

theorem Store.From.effect {U : Unicode} {rs : List Record} {s : Store} (h : s.From U rs) (ret : Option Int) (c : ApiCall)
    (hc : ∀ r ∈ c.stream, r ∈ rs) : (c.effect U ret s).From U rs := by
  have key : ∀ s' : Store, s'.From U rs → Store.From U rs (match ret with | some v => fun id => (s' id).commit v | none => s') := by
    intro s' h'
    cases ret with
    | none => exact h'
    | some v => exact h'.commit v
  unfold ApiCall.effect
  apply key
  cases c with
  | ingest mf l dc ck => exact h.ingest mf l hc
  | rollbackRecords =>
    intro id d hd
    simp only [Hist.rollback, reduceCtorEq, or_false] at hd
    exact h id d (.inl hd)
  | _ => exact h

theorem ingestedFrom_from {U : Unicode} {db : PyStr} {rs : List Record} : ∀ (calls : List ApiCall) (m : Mongo) {s : Store}, s.From U rs →
    (∀ c ∈ calls, ∀ r ∈ c.stream, r ∈ rs) → (ingestedFrom U db m s calls).From U rs
  | [], _, _, h, _ => h
  | c :: calls, m, s, h, hc => by
    unfold ingestedFrom
    split
    · exact ingestedFrom_from calls _ (h.effect _ c (hc c (by simp))) (fun c h => hc c (List.mem_cons_of_mem _ h))
    · exact ingestedFrom_from calls _ h (fun c h => hc c (List.mem_cons_of_mem _ h))

/-- All data of the histories was given to the calls for the record. -/
theorem ingested_from (U : Unicode) (db : PyStr) (calls : List ApiCall) {id : PyStr} {vd : Int × Dict}
    (h : vd ∈ (ingested U db calls id).committed) : ∃ r ∈ calls.flatMap ApiCall.stream, r.id = id ∧ vd.2 = prepareRecordData U r :=
  ingestedFrom_from calls Mongo.empty (s := Store.empty) (fun id d hd => by simp [Store.empty] at hd)
    (fun c hc r hr => List.mem_flatMap.2 ⟨c, hc, hr⟩) id vd.2 (.inl (List.mem_map_of_mem h))

theorem ingested_asOf (U : Unicode) (db : PyStr) (calls : List ApiCall) {id : PyStr} {v : Int} {a : Dict}
    (h : AsOf (ingested U db calls id).committed v a) : ∃ r ∈ calls.flatMap ApiCall.stream, r.id = id ∧ a = prepareRecordData U r := by
  obtain ⟨w, hw, _⟩ := h
  exact ingested_from U db calls hw

section
variable (E : ParseEnv) (hE : E.IgnoresOrder) (U : Unicode) (hU : U.Sane) (maxDocs : Nat) (db : PyStr)
include hU

theorem setup_first (calls : List ApiCall) (ho : Orderly calls) (hv : ∃ v, IsVersion (afterCalls U db calls) db v)
    (hn : NoPunsAmong U (calls.flatMap ApiCall.stream)) :
    ∃ es hi, sync (realParser E) maxDocs db false (afterCalls U db calls) [] = .ok es ∧
      LifeInv (fun id => (strictClass (placesOf U _ hn id)).named) db (afterCalls U db calls) (ingested U db calls) hi ∧
      DbOk db (afterCalls U db calls) ∧ LatestOk es ∧ IndexesRecords (realParser E) db (afterCalls U db calls)
        (((afterCalls U db calls).data db).filter (fun r => r.version.isSome)) es := by
  obtain ⟨w, hw⟩ := hv
  have hm := life_dbOk ho hw
  obtain ⟨es, h1, h2, h3⟩ := C30_first_sync (realParser E) maxDocs db _ hm
  have hl := life (K := fun id => (strictClass (placesOf U _ hn id)).named) (U := U) (db := db)
    (fun c hc => fits_named_strict hU hn (fun r hr => List.mem_flatMap.2 ⟨c, hc, hr⟩)) ho
  exact ⟨es, _, h1, hl.toLifeInv, hm, h2, h3⟩

include hE

theorem setup_syncs (first : List ApiCall) (parts : List (List ApiCall)) (ho : Orderly (first ++ parts.flatten))
    (hv : ∃ v, IsVersion (afterCalls U db first) db v) (he : EachPart (NoUpdateDelete db) U db first parts)
    (hp : ∀ m ∈ statesOf U db first parts, NoPending db m)
    (hn : NoPunsAmong U ((first ++ parts.flatten).flatMap ApiCall.stream)) :
    ∃ es hi, runSyncs (realParser E) maxDocs db [] (statesOf U db first parts) = .ok es ∧
      LifeInv (fun id => (strictClass (placesOf U _ hn id)).named) db (afterCalls U db (first ++ parts.flatten))
        (ingested U db (first ++ parts.flatten)) hi ∧
      DbOk db (afterCalls U db (first ++ parts.flatten)) ∧ LatestOk es ∧
      IndexesRecords (realParser E) db (afterCalls U db (first ++ parts.flatten))
        (((afterCalls U db (first ++ parts.flatten)).data db).filter (fun r => r.version.isSome)) es ∧
      ∀ id, (ingested U db (first ++ parts.flatten) id).pending = none := by
  have hR := (realParser_respects (E := E) hE (placesOf U _ hn)).named
  have hq : ∀ c ∈ first ++ parts.flatten, Fits (fun id => (strictClass (placesOf U _ hn id)).named) U c.stream := fun c hc =>
    fits_named_strict hU hn (fun r hr => List.mem_flatMap.2 ⟨c, hc, hr⟩)
  obtain ⟨ms, hms⟩ := statesOf_getLast U db parts first
  have ht := life_timeline hR parts first hq ho hv he
  have hm := ht.dbOk _ (by rw [hms]; simp : afterCalls U db (first ++ parts.flatten) ∈ statesOf U db first parts)
  have hl := life hq ho (db := db)
  rw [hms] at ht hp
  have hpl := hp (afterCalls U db (first ++ parts.flatten)) (by simp)
  obtain ⟨es, es0, h1, _, _, h2, h3⟩ := C31_incremental_partial (realParser E) maxDocs db ms _ ht hp
  rw [← filter_noPending hpl] at h3
  rw [hms]
  exact ⟨es, _, h1, hl.toLifeInv, hm, h2, h3, fun id => hl.toLifeInv.noPending hpl id⟩

end

/-- The id in the data of a record. -/
theorem hasInField_id {U : Unicode} (hU : U.Sane) {r : Record} {P : Value → Prop} :
    HasInField (prepareRecordData U r) dataIdField P ↔
      prepareRecordData U r ≠ [] ∧ storedId U r ≠ [] ∧ P (.str (storedId U r)) := by
  have hf := fieldNames_of_clean (C16_names_clean U hU r)
  have hne : prepareRecordData U r ≠ [] → r.data ≠ [] := by
    intro h e
    refine h ?_
    unfold prepareRecordData Record.isDelete
    rw [e]; rfl
  constructor
  · rintro h0
    have hd := h0.ne_nil
    obtain ⟨p, v, h1, h2, h3, h4⟩ := h0
    refine ⟨hd, ?_⟩
    obtain ⟨t, ht1, ht2⟩ := (C13_prepared_id U r).2 (hne hd)
    have ht : t = storedId U r := ht2
    subst ht
    have hs := Value.isScalar_of_isIndexed h3
    have hk := (fieldPath_iff hf h2 hs).1 h1
    cases p with
    | nil => cases h2; cases hs
    | cons a p =>
      cases a with
      | idx i => cases h2
      | key k =>
        have hk' : k :: keysOf p = ["_id".toList] := hk
        injection hk' with e1 e2
        subst e1
        rw [getAt, ht1] at h2
        cases p with
        | nil =>
          have h2' : some (Value.str (storedId U r)) = some v := h2
          cases h2'
          refine ⟨?_, h4⟩
          intro e
          rw [e] at h3
          cases h3
        | cons a p =>
          rw [Option.bind_some, getAt_scalar_cons rfl] at h2
          cases h2
  · rintro ⟨hd, h1, h2⟩
    obtain ⟨t, ht1, ht2⟩ := (C13_prepared_id U r).2 (hne hd)
    have ht : t = storedId U r := ht2
    subst ht
    refine ⟨[.key "_id".toList], .str (storedId U r), by decide, ?_, ?_, h2⟩
    · rw [getAt, ht1]
      rfl
    · cases hs : storedId U r with
      | nil => exact absurd hs h1
      | cons => rfl

end Splitgill
