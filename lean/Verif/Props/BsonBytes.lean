import Verif.Proof.BsonRecord
import Verif.Proof.BsonNumbers
import Verif.Proof.DoubleBytes
import Verif.Proof.Bson3
import Verif.Proof.OptionsBytes
import Verif.Props.Options
import Verif.Props.Prepare
import Verif.Spec.Life
/-!
# C127: records are stored in MongoDB without loss
-/

namespace Splitgill.Props
open Splitgill

/-! ## C127 -/

/-- A value of the data that BSON can hold: an int of 64 bits, a float of Python, or something else. -/
def PlainLeaf (v : Value) : Prop := Int64 v ∧ ∀ q, v = .float (.fin q) → FiniteDouble q

/-- What is given to calls can be stored: ints and times of 64 bits, floats of Python, and lists as long as those of Python. -/
structure Storing (U : Unicode) (calls : List ApiCall) : Prop where
  values : ∀ r ∈ calls.flatMap ApiCall.stream, AllLeavesDict PlainLeaf (prepareRecordData U r)
  lists : ∀ r ∈ calls.flatMap ApiCall.stream, ShortListsDict (prepareRecordData U r)
  times : ∀ t ∈ calls.filterMap ApiCall.clock?, -2 ^ 63 ≤ t ∧ t < 2 ^ 63

/-- **C127**: whatever was called, a record is read back from its bytes as it was written, with its data, version and diffs. -/
theorem C127_read (U : Unicode) (hU : U.Sane) (h0 : U.isC '\x00' = true) (db : PyStr) (calls : List ApiCall)
    (hv : Storing U calls) : ∀ r ∈ (afterCalls U db calls).data db, (r.bytes doubles).length < 2 ^ 31 → readRecord doubles (r.bytes doubles) = some r := by
  intro r hr hz
  have h1 : CollLeaves (BsonLeaf doubles) ((afterCalls U db calls).data db) :=
    runCalls_leaves calls Mongo.empty (fun _ h => (nomatch h)) fun r hr => AllLeavesDict.mono (fun v h => ⟨h.1, doubles_keeps h.2⟩) (hv.values r hr)
  have h2 : CollNames NoNul ((afterCalls U db calls).data db) :=
    runCalls_names calls Mongo.empty (fun _ h => (nomatch h)) fun r _ => prepareRecordData_noNul hU h0 r
  have h3 : CollHas (fun t => -2 ^ 63 ≤ t ∧ t < 2 ^ 63) ((afterCalls U db calls).data db) :=
    runCalls_has calls Mongo.empty (fun _ h => (nomatch h)) hv.lists hv.times
  exact readRecord_bytes (MongoRecord.bsonable (h1 r hr) (h2 r hr) ⟨(h3 r hr).version, fun vd hm => ((h3 r hr).diffs vd hm).2⟩) hz

/-- **C127**: so two records with the same bytes are the same. -/
theorem C127_different (U : Unicode) (hU : U.Sane) (h0 : U.isC '\x00' = true) (db : PyStr) (calls : List ApiCall)
    (hv : Storing U calls) {r s : MongoRecord}
    (hr : r ∈ (afterCalls U db calls).data db) (hs : s ∈ (afterCalls U db calls).data db)
    (hz : (r.bytes doubles).length < 2 ^ 31) (h : r.bytes doubles = s.bytes doubles) : r = s := by
  have h1 := C127_read U hU h0 db calls hv r hr hz
  have h2 := C127_read U hU h0 db calls hv s hs (h ▸ hz)
  rw [h, h2] at h1
  exact (Option.some.inj h1).symm

/-- **C127**: no name of a field, in the data or in the diffs, has a NUL, at which BSON would end the name. -/
theorem C127_names (U : Unicode) (hU : U.Sane) (h0 : U.isC '\x00' = true) (db : PyStr) (calls : List ApiCall) :
    ∀ r ∈ (afterCalls U db calls).data db, r.Names NoNul := by
  intro r hr
  have h2 : CollNames NoNul ((afterCalls U db calls).data db) :=
    runCalls_names calls Mongo.empty (fun _ h => (nomatch h)) fun r _ => prepareRecordData_noNul hU h0 r
  exact h2 r hr

/-- **C127**: the size of a document (see C119) is the number of bytes, and the 17 of the ObjectId. -/
theorem C127_size (F : FloatBytes) (r : MongoRecord) : r.size = (r.bytes F).length + 17 := by
  unfold MongoRecord.bytes MongoRecord.size
  rw [bsonBytes_length]

/-- **C127**: every float of Python is written in eight bytes and is read from them as it was, also zero with a sign, the infinities and NaN. -/
theorem C127_floats (f : PyFloat) (h : ∀ q, f = .fin q → FiniteDouble q) :
    (doubles.write f).length = 8 ∧ doubles.read (doubles.write f) = f :=
  ⟨doubles.eight f, doubles_keeps (v := .float f) (fun q e => h q (by injection e)) f rfl⟩

/-- **C127**: options are read back from the bytes of their document as they were given, with their version, whatever the order in which the
sets were written to the document. -/
theorem C127_options (o : ParsingOptions) (ho : OptionsOk o) (hk : -2 ^ 63 ≤ o.keywordLength ∧ o.keywordLength < 2 ^ 63)
    (hs : ∀ h ∈ o.geoHints, -2 ^ 63 ≤ h.segments ∧ h.segments < 2 ^ 63) (doc : OptionsDoc) (hd : IsDocOf doc o) (name : PyStr) (version : Option Int)
    (hv : ∀ v, version = some v → -2 ^ 63 ≤ v ∧ v < 2 ^ 63) (hz : (bsonBytes doubles (OptDoc.mk name version doc).toBson).length < 2 ^ 31) :
    ∃ d, (readDocument doubles (bsonBytes doubles (OptDoc.mk name version doc).toBson)).bind OptDoc.ofBson = some d ∧
      d.name = name ∧ d.version = version ∧ SameOptions (ParsingOptions.fromDoc d.options) o := by
  refine ⟨⟨name, version, doc⟩, ?_, rfl, rfl, C27_from_doc_to_doc o ho doc hd⟩
  have hb : Bsonable doubles (OptDoc.mk name version doc).toBson := by
    refine OptDoc.bsonable hv ?_ ?_
    · show _ ≤ doc.keywordLength ∧ doc.keywordLength < _
      rw [hd.keywordLength]; exact hk
    · intro h hh
      have := hd.geoHints.mem_iff.1 hh
      obtain ⟨g, hg, rfl⟩ := List.mem_map.1 this
      exact hs g hg
  rw [bsonBytes_length] at hz
  rw [show (OptDoc.mk name version doc).toBson = .dict _ from rfl] at hb hz ⊢
  rw [readDocument_bytes doubles hb hz, Option.bind_some]
  exact OptDoc.ofBson_toBson _

/-- An int of more than 64 bits would be read as another: MongoDB's client refuses it (see C99). -/
theorem C127_int_witness : bsonBytes doubles (.dict [(['i'], .int (2 ^ 63))]) = bsonBytes doubles (.dict [(['i'], .int (-2 ^ 63))]) := by
  decide +kernel

/-- A name with a NUL would be read as other fields. -/
theorem C127_nul_witness : bsonBytes doubles (.dict [(['a', '\x00', '\n', 'b'], .none)]) = bsonBytes doubles (.dict [(['a'], .none), (['b'], .none)]) := by
  decide +kernel

/-! ### Examples -/

/-- A record is ingested, and ingested again with other data. -/
def exStored : List ApiCall :=
  [.ingest none [⟨['r'], [(.str ['x'], .list [.int 1, .float (.fin (3 / 2))]), (.str ['\x00', 'é'], .str ['é', '\t'])]⟩] true 1700000000000,
   .ingest none [⟨['r'], [(.str ['x'], .list [.int (-5), .float .negZero, .int (2 ^ 40)])]⟩] true 1700000000001]

/-- What is stored. -/
def exStoredRecord : MongoRecord :=
  ⟨['r'], some 1700000000001, [(['x'], .list [.int (-5), .float .negZero, .int (2 ^ 40)]), (dataIdField, .str ['r'])],
    [(1700000000000, [⟨[], { dn := some [(['é'], .str ['é', '\t'])] }⟩,
      ⟨[.key ['x']], { lc := some [(0, .int 1), (1, .float (.fin (3 / 2)))], ld := some 2 }⟩])]⟩

/-- What is given can be stored. -/
theorem exStored_storing : Storing asciiU exStored := by
  have h0 : ∀ r ∈ exStored.flatMap ApiCall.stream, AllLeavesDict PlainLeaf (prepareRecordData asciiU r) ∧ ShortListsDict (prepareRecordData asciiU r) := by
    have ok : ∀ v, (∀ i, v ≠ .int i) → (∀ f, v ≠ .float f) → PlainLeaf v := fun v h1 h2 => ⟨fun i e => absurd e (h1 i), fun q e => absurd e (h2 _)⟩
    have int : ∀ i : Int, -2 ^ 63 ≤ i ∧ i < 2 ^ 63 → PlainLeaf (.int i) := fun i h => ⟨fun _ e => by cases e; exact h, fun _ e => (nomatch e)⟩
    intro r hr
    rw [show exStored.flatMap ApiCall.stream = [_, _] from rfl] at hr
    rcases List.mem_cons.1 hr with rfl | hr
    · rw [show prepareRecordData asciiU _ = [(['x'], .list [.int 1, .float (.fin (3 / 2))]), (['é'], .str ['é', '\t']), (dataIdField, .str ['r'])]
        by decide +kernel]
      exact ⟨⟨⟨int 1 (by norm_num), ⟨fun _ e => (nomatch e), fun q e => by cases e; exact ⟨3, -1, by norm_num, by norm_num, by norm_num, by norm_num⟩⟩, trivial⟩,
        ok _ (by simp) (by simp), ok _ (by simp) (by simp), trivial⟩, by simp [ShortListsDict, ShortLists, ShortListsList]⟩
    · rw [List.mem_singleton] at hr
      subst hr
      rw [show prepareRecordData asciiU _ = [(['x'], .list [.int (-5), .float .negZero, .int (2 ^ 40)]), (dataIdField, .str ['r'])] by decide +kernel]
      exact ⟨⟨⟨int (-5) (by norm_num), ⟨fun _ e => (nomatch e), fun q e => by cases e⟩, int _ (by norm_num), trivial⟩, ok _ (by simp) (by simp), trivial⟩, by simp [ShortListsDict, ShortLists, ShortListsList]⟩
  exact ⟨fun r hr => (h0 r hr).1, fun r hr => (h0 r hr).2, by
    rw [show exStored.filterMap ApiCall.clock? = [1700000000000, 1700000000001] from rfl]
    simp⟩

set_option maxRecDepth 100000 in
/-- What is stored takes 266 bytes. -/
example : (afterCalls asciiU ['x'] exStored).data ['x'] = [exStoredRecord] ∧
    (exStoredRecord.bytes doubles).length = 266 ∧ readRecord doubles (exStoredRecord.bytes doubles) = some exStoredRecord := by
  have h2 : (afterCalls asciiU ['x'] exStored).data ['x'] = [exStoredRecord] := by decide +kernel
  have h4 : (exStoredRecord.bytes doubles).length = 266 := by
    unfold MongoRecord.bytes
    rw [bsonBytes_length]
    decide +kernel
  exact ⟨h2, h4, C127_read asciiU asciiU_sane (by decide) ['x'] exStored exStored_storing _ (by rw [h2]; exact List.mem_singleton.2 rfl) (by rw [h4]; norm_num)⟩

/-- The hypotheses of `C127_options` hold of options with a true value and a hint without a radius. -/
example : ∃ o : ParsingOptions, OptionsOk o ∧ (-2 ^ 63 ≤ o.keywordLength ∧ o.keywordLength < 2 ^ 63) ∧
    (∀ h ∈ o.geoHints, -2 ^ 63 ≤ h.segments ∧ h.segments < 2 ^ 63) ∧ IsDocOf o.toDoc o ∧ o.trueValues ≠ [] ∧ o.geoHints ≠ [] ∧
    (bsonBytes doubles (OptDoc.mk ['x'] none o.toDoc).toBson).length < 2 ^ 31 := by
  refine ⟨⟨[['y']], [['n'], ['é']], [], [⟨['a'], ['b'], none, 16⟩], 255, ['f']⟩, ⟨by decide, by decide, by decide, by decide⟩, by decide, by simp,
    ⟨.refl _, .refl _, .refl _, .refl _, rfl, rfl⟩, by simp, by simp, ?_⟩
  rw [bsonBytes_length]
  decide +kernel

end Splitgill.Props
