import Verif.Proof.Life
import Verif.Props.Sync
/-!
# C30-C35 for databases that are written through the API

The theorems of `Verif.Props.Sync` are about databases that satisfy `DbOk` and follow one another as in `Timeline`. Here:
what calls of the API make is like that, for a client with one database, with a clock that goes forward.
-/

namespace Splitgill.Props
open Splitgill

/-- After any calls, of which one committed something, the database is as `DbOk` says. -/
theorem Life_dbOk (U : Unicode) (db : PyStr) (calls : List ApiCall) (h : Orderly calls) (v : Int)
    (hv : IsVersion (afterCalls U db calls) db v) : DbOk db (afterCalls U db calls) :=
  life_dbOk h hv

/-- The states at several times of a database are a `Timeline`, for parsers that do not tell equal data apart. -/
theorem Life_timeline {P : Type} (X : Parser P) (hX : X.Respects) (U : Unicode) (db : PyStr) (extra : Int → Mongo → Prop)
    (first : List ApiCall) (parts : List (List ApiCall)) (ho : Orderly (first ++ parts.flatten))
    (hv : ∃ v, IsVersion (afterCalls U db first) db v) (he : EachPart extra U db first parts) :
    Timeline X db extra (statesOf U db first parts) :=
  life_timeline hX.plain parts first (fun c _ => fits_plain U c.stream) ho hv he

/-- **C30** for the API: the first sync succeeds after any calls, and indexes every record without uncommitted
changes. -/
theorem C30_api {P : Type} (X : Parser P) (maxDocs : Nat) (U : Unicode) (db : PyStr) (calls : List ApiCall)
    (h : Orderly calls) (v : Int) (hv : IsVersion (afterCalls U db calls) db v) :
    ∃ es, sync X maxDocs db false (afterCalls U db calls) [] = .ok es ∧ LatestOk es ∧
      IndexesRecords X db (afterCalls U db calls)
        (((afterCalls U db calls).data db).filter (fun r => r.version.isSome)) es :=
  C30_first_sync X maxDocs db _ (life_dbOk h hv)

/-- **C31** for the API: syncs between calls give the same indices as one sync at the end, if no record is
changed and then deleted between two syncs, and nothing is uncommitted at the syncs. Missing: such records, see
`C31_refuted`. -/
theorem C31_api_partial {P : Type} (X : Parser P) (hX : X.Respects) (maxDocs : Nat) (U : Unicode) (db : PyStr)
    (first : List ApiCall) (parts : List (List ApiCall)) (ho : Orderly (first ++ parts.flatten))
    (hv : ∃ v, IsVersion (afterCalls U db first) db v) (he : EachPart (NoUpdateDelete db) U db first parts)
    (hp : ∀ m ∈ statesOf U db first parts, NoPending db m) :
    ∃ es es0, runSyncs X maxDocs db [] (statesOf U db first parts) = .ok es ∧
      sync X maxDocs db false (afterCalls U db (first ++ parts.flatten)) [] = .ok es0 ∧ SameIndices es es0 ∧ LatestOk es ∧
      IndexesRecords X db (afterCalls U db (first ++ parts.flatten)) ((afterCalls U db (first ++ parts.flatten)).data db) es := by
  obtain ⟨ms, hms⟩ := statesOf_getLast U db parts first
  have ht := life_timeline hX.plain parts first (fun c _ => fits_plain U c.stream) ho hv he
  rw [hms] at ht hp ⊢
  exact C31_incremental_partial X maxDocs db ms _ ht hp

/-- **C35** for the API. Missing: see `C35_refuted`. -/
theorem C35_api_partial {P : Type} (X : Parser P) (hX : X.Respects) (maxDocs : Nat) (U : Unicode) (db : PyStr)
    (first : List ApiCall) (parts : List (List ApiCall)) (ho : Orderly (first ++ parts.flatten))
    (hv : ∃ v, IsVersion (afterCalls U db first) db v)
    (he : EachPart (fun t m => NoUpdateDelete db t m ∧ PendingOld db (some t) m) U db first parts)
    (hp : PendingOld db none (afterCalls U db first)) :
    ∃ es, runSyncs X maxDocs db [] (statesOf U db first parts) = .ok es ∧ LatestOk es ∧
      IndexesRecords X db (afterCalls U db (first ++ parts.flatten)) ((afterCalls U db (first ++ parts.flatten)).data db) es := by
  obtain ⟨ms, hms⟩ := statesOf_getLast U db parts first
  have ht := life_timeline hX.plain parts first (fun c _ => fits_plain U c.stream) ho hv he
  have hs : ∃ l, statesOf U db first parts = afterCalls U db first :: l := by cases parts <;> exact ⟨_, rfl⟩
  obtain ⟨l, hl⟩ := hs
  rw [hl] at ht
  obtain ⟨es, h1, h2⟩ := C35_pending_partial X maxDocs db _ l ht hp
  have hlast : (afterCalls U db first :: l).getLast (by simp) = afterCalls U db (first ++ parts.flatten) := by
    have : afterCalls U db first :: l = ms ++ [afterCalls U db (first ++ parts.flatten)] := by rw [← hl, hms]
    simp [this]
  rw [hlast] at h2
  exact ⟨es, by rw [hl]; exact h1, h2⟩

/-- A parser that does not tell equal data apart: the number of fields. -/
def exCount : Parser (Nat × ParsingOptions) where
  parse d o := (d.length, o)
  eq a b := decide (a.1 = b.1) && a.2.pyEq b.2

example : exCount.Respects := by
  intro d d' o h
  have : d.length = d'.length := by
    simp only [simEq, eqWith, Bool.and_eq_true, beq_iff_eq, decide_eq_true_eq] at h
    exact h.1
  simp [exCount, this]

/-- A change of a record, new options and the deletion of another record, between two syncs. -/
def exParts : List (List ApiCall) :=
  [[.ingest none [exRec ['a'] 2] true 2, .ingest none [exDel ['b']] true 3, .updateOptions (exOpts 20) true 4]]

set_option maxRecDepth 100000 in
example : Orderly (exCalls1 ++ exParts.flatten) ∧ (∃ v, IsVersion (afterCalls asciiU ['x'] exCalls1) ['x'] v) ∧
    EachPart (NoUpdateDelete ['x']) asciiU ['x'] exCalls1 exParts ∧
    (∀ m ∈ statesOf asciiU ['x'] exCalls1 exParts, NoPending ['x'] m) := by
  have ho : Orderly (exCalls1 ++ exParts.flatten) := by
    refine ⟨by decide, ?_⟩
    intro c hc
    simp [exCalls1, exParts] at hc
    rcases hc with rfl | rfl | rfl | rfl <;> unfold NoSpan <;> decide
  have hv : IsVersion (afterCalls asciiU ['x'] exCalls1) ['x'] 1 :=
    .inr ⟨(afterCalls asciiU ['x'] exCalls1).options.head (by decide), by decide, by decide, by decide⟩
  refine ⟨ho, ⟨1, hv⟩, ⟨?_, trivial⟩, ?_⟩
  · intro t ht
    have : (exCalls1.filterMap ApiCall.clock?).getLast? = some 1 := by decide
    rw [this] at ht; cases ht
    exact noUpdateDelete_of_check (dbOk_of_check (by decide)) (by decide)
  · have : ∀ m ∈ statesOf asciiU ['x'] exCalls1 exParts, ∀ r ∈ m.data ['x'], r.version ≠ none := by decide
    exact this

end Splitgill.Props
