import Verif.Proof.Batches
import Verif.Props.History
/-!
# C14: ids that are repeated in several lookup batches of one ingest
-/

namespace Splitgill.Props
open Splitgill

/-- **C14** (ids in several batches) it does not matter that an id occurs in several batches of 200 records if, at the lookup of each batch,
no operation for one of its records waits to be written: the ingest is then what ingesting the batches by calls of their own is. Every id
has at most one record afterwards, with the history that ingesting only its last occurrence gives; the other records stay as they are. -/
theorem C14_settled_partial (U : Unicode) (es : List Event) (hes : Regular es) (c : Coll) (hc : runEvents U [] es = .ok c) (mf : Option PyStr)
    (records : List Record) (hset : Settled U mf 200 c [] (partition records 200)) :
    ∃ c', ingest U mf c records = .ok c' ∧ ingestEach U mf c (partition records 200) = .ok c' ∧ (c'.map MongoRecord.id).Nodup ∧
      (∀ id, (∀ r ∈ records, r.id ≠ id) → findRecord id c' = findRecord id c) ∧
      ∀ pre r post, records = pre ++ r :: post → (∀ r' ∈ post, r'.id ≠ r.id) →
        ∃ c1 a b, ingest U mf c [r] = .ok c1 ∧ history c1 r.id = .ok a ∧ history c' r.id = .ok b ∧ SameStates b a := by
  obtain ⟨s, _, h2⟩ := reach hes hc
  obtain ⟨c', e1, e2, e3⟩ := ingestEach_rcoll (U := U) (mf := mf) h2 (bs := partition records 200)
    (fun b hb => partitionLoop_chunks _ _ b hb)
  rw [foldl_ingest, partition_flatten (by omega)] at e2
  refine ⟨c', by rw [ingest_settled hset, e1], e1, e2.nodup, fun id hid => e3 id fun b hb r hr => hid r ?_, fun pre r post he hpost => ?_⟩
  · rw [← partition_flatten (size := 200) (by omega) records]
    exact List.mem_flatten.2 ⟨b, hb, hr⟩
  · have hspan : NoSpan 200 [r] := by
      rw [NoSpan, partition_short (by simp) (by simp)]
      exact List.pairwise_singleton _ _
    obtain ⟨c1, f1, f2⟩ := ingest_event (U := U) (mf := mf) h2 (fits_plain U [r]) hspan
    obtain ⟨a, a1, a2⟩ := Rep.history f2 r.id
    obtain ⟨b, b1, b2⟩ := Rep.history e2 r.id
    refine ⟨c1, a, b, f1, a1, b1, ?_⟩
    have l1 : lastRec r.id records = some r := by
      rw [he, lastRec_append, lastRec_cons, lastRec_none.2 hpost]; simp
    have l2 : lastRec r.id [r] = some r := by rw [lastRec_cons]; simp [lastRec]
    rw [Store.ingest_eq, l2] at a2
    rw [Store.ingest_eq, l1] at b2
    exact b2.via a2

/-- **C14** (when this is so) no operation waits for a record of a later batch if no id is in two batches, or if every batch but the last
makes 200 operations, as it does when its 200 records have different ids and each is new or changed. -/
theorem C14_when_settled (U : Unicode) (mf : Option PyStr) (c : Coll) (records : List Record)
    (h : NoSpan 200 records ∨ ∀ ops ∈ (batchOps U mf c (partition records 200)).dropLast, ops.length = 200) :
    Settled U mf 200 c [] (partition records 200) :=
  h.elim (fun h => settled_apart h (fun _ ho => nomatch ho)) settled_full

/-- 200 new records with different ids, then the first of them again. -/
def exAgain : List Record := (List.range 200).map (fun n => exRec [Char.ofNat (1000 + n)] 1) ++ [exRec [Char.ofNat 1000] 2]

set_option maxRecDepth 100000 in
example : (∀ ops ∈ (batchOps asciiU none [] (partition exAgain 200)).dropLast, ops.length = 200) ∧ ¬ NoSpan 200 exAgain ∧
    ((ingest asciiU none [] exAgain).toOption.map (fun c => (c.length, (findRecord [Char.ofNat 1000] c).map MongoRecord.data))) =
      some (200, some (exData [Char.ofNat 1000] 2)) := by
  refine ⟨by decide +kernel, by unfold NoSpan; decide +kernel, by decide +kernel⟩

/-- **C14** (when it is not so) 200 records, not all with different ids, and up to 200 more. An id that has no record yet and occurs, with
data, in both has two records after the ingest, whatever was stored before. -/
theorem C14_twice (U : Unicode) (es : List Event) (hes : Regular es) (c : Coll) (hc : runEvents U [] es = .ok c) (mf : Option PyStr)
    (first second : List Record) (id : PyStr) (hfirst : first.length = 200) (hsecond : second.length ≤ 200)
    (hrep : ¬ (first.map Record.id).Nodup) (hnew : ∀ d ∈ c, d.id ≠ id) (hdata : ∀ r ∈ first ++ second, r.id = id → r.data ≠ [])
    (h1 : ∃ r ∈ first, r.id = id) (h2 : ∃ r ∈ second, r.id = id) :
    ∃ c', ingest U mf c (first ++ second) = .ok c' ∧ 2 ≤ (c'.filter (fun d => d.id = id)).length ∧ ¬ (c'.map MongoRecord.id).Nodup := by
  obtain ⟨s, _, h3⟩ := reach hes hc
  obtain ⟨c', e1, e2⟩ := twice (U := U) (mf := mf) h3 hfirst (fun e => by rw [e] at h2; obtain ⟨_, hr, _⟩ := h2; cases hr) hsecond hrep hnew hdata h1 h2
  refine ⟨c', e1, e2, fun hn => ?_⟩
  have : (c'.filter (fun d => d.id = id)).length ≤ 1 := by
    have hs : ((c'.filter (fun d => d.id = id)).map MongoRecord.id).Nodup := hn.sublist (List.filter_sublist.map _)
    have hr : (c'.filter (fun d => d.id = id)).map MongoRecord.id = List.replicate (c'.filter (fun d => d.id = id)).length id := by
      rw [List.eq_replicate_iff]
      refine ⟨by rw [List.length_map], fun i hi => ?_⟩
      obtain ⟨d, hd, rfl⟩ := List.mem_map.1 hi
      simpa using (List.mem_filter.1 hd).2
    rw [hr] at hs
    exact List.nodup_replicate.1 hs
  omega

set_option maxRecDepth 100000 in
/-- The first record is in the first batch twice, and the second record is in both. -/
example : let first := exRec ['a'] 1 :: exRec ['b'] 1 :: List.replicate 198 (exRec ['a'] 2)
    first.length = 200 ∧ ¬ (first.map Record.id).Nodup ∧ (∃ r ∈ first, r.id = ['b']) ∧ (∃ r ∈ [exRec ['b'] 3], r.id = ['b']) ∧
    ingest asciiU none [] (first ++ [exRec ['b'] 3]) =
      .ok [⟨['a'], none, exData ['a'] 2, []⟩, ⟨['b'], none, exData ['b'] 1, []⟩, ⟨['b'], none, exData ['b'] 3, []⟩] :=
  ⟨by decide, by decide +kernel, ⟨exRec ['b'] 1, by simp, rfl⟩, ⟨exRec ['b'] 3, by simp, rfl⟩, by decide +kernel⟩

end Splitgill.Props
