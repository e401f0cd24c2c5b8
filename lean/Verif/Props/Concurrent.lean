import Verif.Proof.Concurrent
import Verif.Props.History
/-!
# C59: concurrent ingests, rollbacks and commits

`ConcState.run` runs any number of processes that look up records, write what they made of them later, commit
or die, in any order.
-/

namespace Splitgill.Props
open Splitgill

/-- **C59**, the full statement: for every schedule from an empty collection, with the clock going strictly
forward from one commit to the next, every committed version a record shows at some moment is shown, with equal
data, at every later moment. -/
def C59_full : Prop :=
  ∀ (U : Unicode) (acts later : List ConcAct), (commitVersions (acts ++ later)).Pairwise (· < ·) →
    ∀ id items, history (ConcState.run U {} acts).coll id = .ok items →
      ∃ items', history (ConcState.run U {} (acts ++ later)).coll id = .ok items' ∧
        ∃ newer, SameVersions (committedOf items') (newer ++ committedOf items)

/-- Two processes look up the same record at version 10. The first writes its change and commits it as
version 20; then the second writes its own, which it worked out from version 10. -/
def exRace : List ConcAct :=
  [.lookup 1 none [exRec ['a'] 1], .write 1, .commit 10 (fun _ => true),
   .lookup 1 none [exRec ['a'] 2], .lookup 2 none [exRec ['a'] 3], .write 1, .commit 20 (fun _ => true)]

/-- One ingest and a commit by somebody else are enough: record `a` has uncommitted data when the ingest looks
it up, and this data is committed before the ingest writes. -/
def exRace1 : List ConcAct :=
  [.lookup 1 none [exRec ['a'] 1], .write 1, .commit 10 (fun _ => true), .lookup 1 none [exRec ['a'] 2], .write 1,
   .lookup 1 none [exRec ['a'] 3], .commit 20 (fun _ => true)]

/-- Two processes find that a record is new. Both insert it. -/
def exInsertedTwice : List ConcAct :=
  [.lookup 1 none [exRec ['a'] 1], .lookup 2 none [exRec ['a'] 2], .write 1, .write 2]

/-- **C59** does not hold: `ingest` takes no lock, and version 20 is lost. -/
theorem C59_refuted : ¬ C59_full := by
  intro h
  obtain ⟨items', h1, newer, h2⟩ := h asciiU exRace [.write 2] (by decide) ['a']
    [(some 20, exData ['a'] 2), (some 10, exData ['a'] 1)] (by decide)
  have e : history (ConcState.run asciiU {} (exRace ++ [.write 2])).coll ['a'] =
    .ok [(none, exData ['a'] 3), (some 10, exData ['a'] 1)] := by decide
  rw [e] at h1
  cases h1
  have := List.Forall₂.length_eq h2
  simp [committedOf] at this

/-- The same with a single ingest while somebody commits. -/
theorem C59_refuted_single_ingest :
    history (ConcState.run asciiU {} exRace1).coll ['a'] =
      .ok [(some 20, exData ['a'] 2), (some 10, exData ['a'] 1)] ∧
    history (ConcState.run asciiU {} (exRace1 ++ [.write 1])).coll ['a'] =
      .ok [(none, exData ['a'] 3), (some 10, exData ['a'] 1)] := ⟨by decide, by decide⟩

/-- And two ingests of a new record leave two documents with its id. -/
theorem C59_refuted_duplicates :
    ((ConcState.run asciiU {} exInsertedTwice).coll.map (·.id)) = [['a'], ['a']] := by decide

/-- **C59**, for the schedules that have neither race: no two processes are about to insert the same record, and
no change of a record is committed while another one, worked out before, is unwritten. Whatever else the processes
do (ingests of the same records with lookups and writes interleaved in any way, rollbacks, crashes, interrupted
commits), every version shown stays, with equal data, every record can be read, and no id has two documents.
What is missing for the full statement is false, see `C59_refuted`. -/
theorem C59_calm_partial (U : Unicode) (acts later : List ConcAct)
    (hv : (commitVersions (acts ++ later)).Pairwise (· < ·)) (hc : ConcState.Calm U {} (acts ++ later)) :
    ((ConcState.run U {} (acts ++ later)).coll.map (·.id)).Nodup ∧
    ∀ id, ∃ items items', history (ConcState.run U {} acts).coll id = .ok items ∧
      history (ConcState.run U {} (acts ++ later)).coll id = .ok items' ∧
      ((committedOf items').map Prod.fst).Pairwise (· > ·) ∧
      ∃ newer, SameVersions (committedOf items') (newer ++ committedOf items) := by
  obtain ⟨hc1, hc2⟩ := calm_append acts hc
  have hsplit : commitVersions (acts ++ later) = commitVersions acts ++ commitVersions later := by
    simp [commitVersions]
  rw [hsplit] at hv
  obtain ⟨s, h1, _, u1⟩ := ConcInv.run (used := []) acts concInv_empty hc1 (by simp [Store.empty])
    (by simpa using (List.pairwise_append.1 hv).1)
  obtain ⟨s', h2, g, u2⟩ := ConcInv.run later h1 hc2 u1 (by simpa using hv)
  rw [ConcState.run_append]
  refine ⟨h2.rep.nodup, fun id => ?_⟩
  obtain ⟨items, i1, i2⟩ := Rep.history h1.rep id
  obtain ⟨items', j1, j2⟩ := Rep.history h2.rep id
  refine ⟨items, items', i1, j1, ?_, ?_⟩
  · have := j2.committed
    rw [committedOf_states] at this
    rw [this.fst]
    exact Rep.desc (h2.rep.rep id)
  · have i3 := i2.committed
    have j3 := j2.committed
    rw [committedOf_states] at i3 j3
    obtain ⟨newer, hn⟩ := g id
    rw [hn] at j3
    refine ⟨newer, ?_⟩
    have key : ∀ (pre a x : List (Int × Dict)) (b : List (Int × Dict)), VersEq plainClass x (pre ++ b) → VersEq plainClass a b →
        SameVersions x (pre ++ a) := by
      intro pre a
      induction pre with
      | nil => intro x b h1 h2; exact (h1.trans h2.symm).same
      | cons p pre ih =>
        intro x b h1 h2
        cases h1 with
        | cons h hr => exact .cons ⟨h.1, h.2.sim⟩ (ih _ b hr h2)
    exact key newer _ _ _ j3 i3

/-- Two processes change the same record, with their lookups and writes interleaved, and a third rolls back; the
commit comes when nothing that concerns uncommitted data is unwritten. -/
def exCalm : List ConcAct :=
  [.lookup 1 none [exRec ['a'] 1], .write 1, .commit 10 (fun _ => true)]
def exCalmLater : List ConcAct :=
  [.lookup 1 none [exRec ['a'] 2], .lookup 2 none [exRec ['a'] 3, exRec ['b'] 4], .write 1, .lookupRollback 3,
   .write 2, .write 3, .lookup 1 none [exRec ['a'] 5], .write 1, .stop 2, .commit 20 (fun _ => true)]

instance (l : List (Nat × MongoOp)) (r : Record) :
    Decidable (∀ x ∈ l, ∀ data, x.2 ≠ .insert r.id data) :=
  decidable_of_iff (∀ x ∈ l, x.2.insertId ≠ some r.id) <| by
    refine forall₂_congr fun x _ => ?_
    cases h : x.2 <;> simp [MongoOp.insertId]

instance (st : ConcState) : ∀ a, Decidable (st.CalmAt a)
  | .lookup _ _ chunk => inferInstanceAs (Decidable (∀ r ∈ chunk, ∀ x ∈ st.unwritten, ∀ data, x.2 ≠ .insert r.id data))
  | .commit _ done => inferInstanceAs (Decidable (∀ x ∈ st.unwritten, ∀ doc ∈ st.coll, doc.id = x.2.id →
      doc.version = none → done doc.id = false))
  | .lookupRollback _ => .isTrue trivial
  | .write _ => .isTrue trivial
  | .stop _ => .isTrue trivial

instance decCalm (U : Unicode) : ∀ (acts : List ConcAct) (st : ConcState), Decidable (st.Calm U acts)
  | [], _ => .isTrue trivial
  | a :: as, st => @instDecidableAnd _ _ _ (decCalm U as (st.act U a))

example : (commitVersions (exCalm ++ exCalmLater)).Pairwise (· < ·) ∧
    ConcState.Calm asciiU {} (exCalm ++ exCalmLater) ∧
    history (ConcState.run asciiU {} (exCalm ++ exCalmLater)).coll ['a'] =
      .ok [(some 20, exData ['a'] 5), (some 10, exData ['a'] 1)] := by decide

/-- The schedules of the refutations are the ones excluded. -/
example : ¬ ConcState.Calm asciiU {} exRace ∧ ¬ ConcState.Calm asciiU {} exRace1 ∧
    ¬ ConcState.Calm asciiU {} exInsertedTwice := by decide

end Splitgill.Props
