import Verif.Proof.Writers9
import Verif.Props.Search
import Verif.Props.Sync
/-!
# Proofs about processes that ingest and commit: syncs
-/

namespace Splitgill

variable {U : Unicode} {db : PyStr} {before : List ApiCall} {calls : Nat → Option PyStr × List Record × Bool} {acts : List WriterAct}

/-- The collection has histories after a schedule. -/
theorem WritersOk.rcoll (h : WritersOk U db before calls acts) : ∃ s : Store,
    RColl (fun _ => plainClass) ((afterWriters U db before calls acts).mongo.data db) s ∧ ∀ id, FirstOk (s id) := by
  have key := fun id => hist_from (post := []) (by rw [List.append_nil]; exact h) id
  refine ⟨fun id => (key id).choose, ⟨nodup_of_docsWith fun id => (key id).choose_spec.2.2.1, fun id => (key id).choose_spec.1⟩, fun id => (key id).choose_spec.2.1⟩

theorem WritersOk.dbOk (h : WritersOk U db before calls acts) (ho : ValidOptions (committedOptionsOf db (afterWriters U db before calls acts).mongo)) :
    DbOk db (afterWriters U db before calls acts).mongo := by
  obtain ⟨s, h1, h2⟩ := h.rcoll
  exact h1.dbOk h2 ho

/-- The history of a record of which there is one document, which is committed, begins with its data. -/
theorem DbOk.hist_head {m : Mongo} (hm : DbOk db m) {d : MongoRecord} {x : Int} (hd : d ∈ m.data db) (hx : d.version = some x) :
    ∃ rest, histOf (m.data db) d.id = (x, d.data) :: rest := by
  obtain ⟨items, h1, _⟩ := hm.reads d hd
  have hf := findRecord_of_mem (c := m.data db) hm.nodup hd
  simp only [histOf, history, hf, h1]
  rw [MongoRecord.iter] at h1
  split at h1
  · cases h1
  · cases h1
    rw [hx]
    exact ⟨_, rfl⟩

theorem asOf_head {α : Type} {x v : Int} {a : α} {rest : List (Int × α)} (h : (((x, a) :: rest).map Prod.fst).Pairwise (· > ·)) (hv : x ≤ v) :
    AsOf ((x, a) :: rest) v a := by
  refine ⟨x, List.mem_cons_self, hv, fun w y hm _ => ?_⟩
  rw [List.map_cons, List.pairwise_cons] at h
  rcases List.mem_cons.1 hm with e | hm
  · cases e; exact Int.le_refl _
  · have := h.1 w (List.mem_map.2 ⟨_, hm, rfl⟩); omega

end Splitgill
