import Verif.Proof.BsonSteps
import Verif.Props.BsonBytes
import Verif.Props.Size
import Verif.Model.BsonStore
import Verif.Proof.BsonOptions
/-!
# C127: records are stored in MongoDB without loss, also by calls that are stopped
-/

namespace Splitgill.Props
open Splitgill

/-- What is given to steps can be stored. -/
structure StoringSteps (U : Unicode) (steps : List Step) : Prop where
  values : ∀ r ∈ steps.flatMap Step.stream, AllLeavesDict PlainLeaf (prepareRecordData U r)
  lists : ∀ r ∈ steps.flatMap Step.stream, ShortListsDict (prepareRecordData U r)
  times : ∀ t ∈ steps.filterMap Step.clock?, -2 ^ 63 ≤ t ∧ t < 2 ^ 63

/-- **C127**: also when calls were stopped half way, by an exception or by the death of the process, a record is read back from its bytes as
it was written. -/
theorem C127_stopped (U : Unicode) (hU : U.Sane) (h0 : U.isC '\x00' = true) (db : PyStr) (steps : List Step) (hv : StoringSteps U steps) :
    ∀ r ∈ (runSteps U db Mongo.empty steps).data db, (r.bytes doubles).length < 2 ^ 31 → readRecord doubles (r.bytes doubles) = some r := by
  intro r hr hz
  have h : CollGood (BsonLeaf doubles) (fun t => -2 ^ 63 ≤ t ∧ t < 2 ^ 63) ((runSteps U db Mongo.empty steps).data db) :=
    runSteps_good ⟨fun _ h => (nomatch h), fun _ h => (nomatch h), fun _ h => (nomatch h)⟩
      (fun st hst => ⟨hU, h0, fun r hr => AllLeavesDict.mono (fun v h => ⟨h.1, doubles_keeps h.2⟩) (hv.values r (List.mem_flatMap.2 ⟨st, hst, hr⟩)),
        fun r hr => hv.lists r (List.mem_flatMap.2 ⟨st, hst, hr⟩)⟩) hv.times
  exact readRecord_bytes (MongoRecord.bsonable (h.leaves r hr) (h.names r hr) ⟨(h.has r hr).version, fun vd hm => ((h.has r hr).diffs vd hm).2⟩) hz

/-- The steps of calls are given what the calls are given. -/
theorem StoringSteps.ofCalls {U : Unicode} : ∀ {calls : List ApiCall} {steps : List (List Step)}, List.Forall₂ StepsOf calls steps →
    Storing U calls → StoringSteps U steps.flatten := by
  intro calls steps h hv
  have hs : ∀ r ∈ steps.flatten.flatMap Step.stream, r ∈ calls.flatMap ApiCall.stream := by
    clear hv
    induction h with
    | nil => exact fun _ h => h
    | cons h1 _ ih =>
      intro r hr
      rw [List.flatten_cons, List.flatMap_append] at hr
      rw [List.flatMap_cons]
      rcases List.mem_append.1 hr with hr | hr
      · obtain ⟨x, hx, hr⟩ := List.mem_flatMap.1 hr
        rcases stepsOf_stream h1 x hx with e | e
        · exact List.mem_append_left _ (e ▸ hr)
        · rw [e] at hr; cases hr
      · exact List.mem_append_right _ (ih r hr)
  have ht : ∀ t ∈ steps.flatten.filterMap Step.clock?, t ∈ calls.filterMap ApiCall.clock? := by
    clear hv hs
    induction h with
    | nil => exact fun _ h => h
    | @cons c st _ _ h1 _ ih =>
      intro t hm
      rw [List.flatten_cons, List.filterMap_append] at hm
      rcases List.mem_append.1 hm with hm | hm
      · have := (stepsOf_clock h1).subset hm
        exact List.mem_filterMap.2 ⟨c, List.mem_cons_self, by simpa using this⟩
      · obtain ⟨x, hx, e⟩ := List.mem_filterMap.1 (ih t hm)
        exact List.mem_filterMap.2 ⟨x, List.mem_cons_of_mem _ hx, e⟩
  exact ⟨fun r hr => hv.values r (hs r hr), fun r hr => hv.lists r (hs r hr), fun t hm => hv.times t (ht t hm)⟩

/-- **C127**: with MongoDB's limit on the size of a document (16 MiB, see C119), whatever was called and refused, every record is read back
from its bytes as it was written. -/
theorem C127_sized (U : Unicode) (hU : U.Sane) (h0 : U.isC '\x00' = true) (db : PyStr) (limit : Nat) (hl : limit < 2 ^ 31)
    (calls : List (ApiCall × Reached)) (hv : Storing U (calls.map Prod.fst)) :
    ∀ r ∈ (afterSized U db limit Mongo.empty calls).data db, readRecord doubles (r.bytes doubles) = some r := by
  intro r hr
  have hz : (r.bytes doubles).length < 2 ^ 31 := by
    have := C119_stored U db limit calls r hr
    rw [C127_size doubles r] at this
    omega
  obtain ⟨steps, h1, h2⟩ := sized_steps U db limit calls Mongo.empty
  rw [h2] at hr
  exact C127_stopped U hU h0 db _ (.ofCalls h1 hv) r hr hz

theorem mapM_self {α : Type} {f : α → Option α} : ∀ {l : List α}, (∀ a ∈ l, f a = some a) → l.mapM f = some l
  | [], _ => rfl
  | a :: l, h => by
    rw [List.mapM_cons, h a List.mem_cons_self, mapM_self (fun x hx => h x (List.mem_cons_of_mem _ hx))]
    rfl

/-- **C127**: so calls that work on what is read from the bytes that were written before do what the model of the other properties has them
do, in which the data and the options themselves are kept. -/
theorem C127_calls (U : Unicode) (hU : U.Sane) (h0 : U.isC '\x00' = true) (db : PyStr) (limit : Nat) (hl : limit < 2 ^ 31)
    (calls : List (ApiCall × Reached)) (hv : Storing U (calls.map Prod.fst))
    (ho : ∀ o ∈ defaultOptions :: (calls.map Prod.fst).flatMap ApiCall.givenOptions, OptionsStorable db o) :
    afterBytes U db limit Mongo.empty calls = some (afterSized U db limit Mongo.empty calls) := by
  have reread : ∀ pre post, pre ++ post = calls →
      (afterSized U db limit Mongo.empty pre).reread db = some (afterSized U db limit Mongo.empty pre) := fun pre post e => by
    have hp : Storing U (pre.map Prod.fst) := by
      rw [← e, List.map_append] at hv
      exact ⟨fun r hr => hv.values r (by rw [List.flatMap_append]; exact List.mem_append_left _ hr),
        fun r hr => hv.lists r (by rw [List.flatMap_append]; exact List.mem_append_left _ hr),
        fun t ht => hv.times t (by rw [List.filterMap_append]; exact List.mem_append_left _ ht)⟩
    have hg : OptsGood (afterSized U db limit Mongo.empty pre) := afterSized_optsGood (ho _ List.mem_cons_self) (fun _ h => (nomatch h))
      (fun o hm => ho o (List.mem_cons_of_mem _ (by rw [← e, List.map_append, List.flatMap_append]; exact List.mem_append_left _ hm))) hp.times
    rw [Mongo.reread, mapM_self (C127_sized U hU h0 db limit hl pre hp), Option.bind_some, mapM_self (fun d hd => (hg d hd).read), Option.map_some,
      setData_self]
  suffices h : ∀ post pre, pre ++ post = calls → afterBytes U db limit (afterSized U db limit Mongo.empty pre) post = some (afterSized U db limit Mongo.empty calls) from
    h calls [] rfl
  intro post
  induction post with
  | nil =>
    intro pre e
    rw [afterBytes, reread pre [] e]
    rw [List.append_nil] at e
    rw [e]
  | cons c post ih =>
    intro pre e
    rw [afterBytes, reread pre _ e, Option.bind_some]
    have := ih (pre ++ [c]) (by rw [List.append_assoc]; exact e)
    rw [afterSized, List.foldl_append] at this
    exact this

/-! ### Examples -/


/-- An ingest that stops after its first write, and a commit that stops before it releases the lock. -/
def exStoredSteps : List Step :=
  [.ingestStops none [⟨['r'], [(.str ['x'], .int (2 ^ 40))]⟩, ⟨['s'], [(.str ['x'], .int 1)]⟩] 1, .commitStops 1700000000000 [0, 0, 0, 0, 0, 0, 0, 0, 0] true]

set_option maxRecDepth 100000 in
example : StoringSteps asciiU exStoredSteps ∧
    (runSteps asciiU ['x'] Mongo.empty exStoredSteps).data ['x'] = [⟨['r'], some 1700000000000, [(['x'], .int (2 ^ 40)), (dataIdField, .str ['r'])], []⟩] := by
  have int : ∀ i : Int, -2 ^ 63 ≤ i ∧ i < 2 ^ 63 → PlainLeaf (.int i) := fun i h => ⟨fun _ e => by cases e; exact h, fun _ e => (nomatch e)⟩
  have str : ∀ s, PlainLeaf (.str s) := fun s => ⟨fun _ e => (nomatch e), fun _ e => (nomatch e)⟩
  have h : ∀ r ∈ exStoredSteps.flatMap Step.stream, AllLeavesDict PlainLeaf (prepareRecordData asciiU r) ∧ ShortListsDict (prepareRecordData asciiU r) := by
    intro r hr
    rw [show exStoredSteps.flatMap Step.stream = [_, _] from rfl] at hr
    rcases List.mem_cons.1 hr with rfl | hr
    · rw [show prepareRecordData asciiU _ = [(['x'], .int (2 ^ 40)), (dataIdField, .str ['r'])] by decide +kernel]
      exact ⟨⟨int _ (by norm_num), str _, trivial⟩, by simp [ShortListsDict, ShortLists]⟩
    · rw [List.mem_singleton] at hr
      subst hr
      rw [show prepareRecordData asciiU _ = [(['x'], .int 1), (dataIdField, .str ['s'])] by decide +kernel]
      exact ⟨⟨int _ (by norm_num), str _, trivial⟩, by simp [ShortListsDict, ShortLists]⟩
  refine ⟨⟨fun r hr => (h r hr).1, fun r hr => (h r hr).2, ?_⟩, by decide +kernel⟩
  rw [show exStoredSteps.filterMap Step.clock? = [1700000000000] from rfl]
  simp

/-- Calls that also change the options. -/
def exStoredCalls : List ApiCall := exStored ++ [.updateOptions ⟨[['y']], [['n'], ['é']], [], [⟨['a'], ['b'], none, 16⟩], 255, ['f']⟩ true 1700000000002]

set_option maxRecDepth 100000 in
/-- The hypotheses of `C127_sized` and `C127_calls` hold of these calls with the limit of MongoDB, and with one so small that the second call is
refused. -/
example (limit : Nat) (h : limit = 16 * 1024 * 1024 ∨ limit = 250) :
    afterBytes asciiU ['x'] limit Mongo.empty (exStoredCalls.map (fun c => (c, ⟨0, fun _ => false⟩))) =
      some (afterSized asciiU ['x'] limit Mongo.empty (exStoredCalls.map (fun c => (c, ⟨0, fun _ => false⟩)))) := by
  have e : (exStoredCalls.map (fun c => (c, (⟨0, fun _ => false⟩ : Reached)))).map Prod.fst = exStoredCalls := rfl
  refine C127_calls asciiU asciiU_sane (by decide) ['x'] limit (by omega) _ ?_ ?_
  · rw [e]
    have hs : exStoredCalls.flatMap ApiCall.stream = exStored.flatMap ApiCall.stream := rfl
    refine ⟨by rw [hs]; exact exStored_storing.values, by rw [hs]; exact exStored_storing.lists, ?_⟩
    rw [show exStoredCalls.filterMap ApiCall.clock? = [1700000000000, 1700000000001, 1700000000002] from rfl]
    simp
  · rw [e, show exStoredCalls.flatMap ApiCall.givenOptions = [_] from rfl]
    intro o ho
    rcases List.mem_cons.1 ho with rfl | ho
    · exact ⟨by decide, by decide, by rw [bsonBytes_length]; decide +kernel⟩
    · rw [List.mem_singleton] at ho
      subst ho
      exact ⟨by decide, by simp, by rw [bsonBytes_length]; decide +kernel⟩

end Splitgill.Props
