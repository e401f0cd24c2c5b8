import Verif.Proof.BsonBytes
import Verif.Proof.BsonNames
import Verif.Proof.JsonFloat2
import Verif.Proof.NumberText
/-!
# Lemmas: records in BSON
-/

namespace Splitgill

theorem signedDigits_intStr (v : Int) : signedDigits (intStr v) = some v := by
  obtain ⟨digits, h1, h2, h3, h4, -⟩ := intStr_form v
  refine signedDigits_iff.2 ⟨_, digits, decide (v < 0), h1, ?_, h2, h3, ?_⟩
  · split
    · rename_i h
      rw [decide_eq_true h]; constructor
    · rename_i h
      rw [decide_eq_false h]; constructor
  · rw [h4]
    split
    · rename_i h
      have := of_decide_eq_true h; omega
    · rename_i h
      have := of_decide_eq_false (by simpa using h : decide (v < 0) = false); omega

theorem mapM_map_some {α β : Type} {f : β → Option α} {g : α → β} (h : ∀ a, f (g a) = some a) : ∀ l : List α, (l.map g).mapM f = some l
  | [] => rfl
  | a :: l => by rw [List.map_cons, List.mapM_cons, h, mapM_map_some h l]; rfl

theorem PathEl.ofBson_toBson (e : PathEl) : PathEl.ofBson e.toBson = some e := by
  cases e with
  | key k => rfl
  | idx i => rfl

theorem Ops.ofBson_toBson (o : Ops) : Ops.ofBson o.toBson = some o := by
  obtain ⟨dn, dd, dc, lc, ln, ld⟩ := o
  have h1 : ∀ l : List PyStr, (l.map Value.str).mapM strOf = some l :=
    mapM_map_some (f := strOf) (g := Value.str) (fun _ => rfl)
  have h2 : ∀ l : List (Nat × Value), (l.map (fun c => Value.list [.int c.1, c.2])).mapM changeOf = some l :=
    mapM_map_some (f := changeOf) (g := fun c => Value.list [.int c.1, c.2]) (fun _ => rfl)
  cases dn <;> cases dd <;> cases dc <;> cases lc <;> cases ln <;> cases ld <;>
    simp [Ops.ofBson, Ops.toBson, dictOf, listOf, natOf, fieldOf, aget, h1, h2]

theorem DiffOp.ofBson_toBson (o : DiffOp) : DiffOp.ofBson o.toBson = some o := by
  unfold DiffOp.toBson DiffOp.ofBson
  dsimp only
  rw [mapM_map_some PathEl.ofBson_toBson, Ops.ofBson_toBson]
  rfl

theorem versionDiffs_toBson (vd : Int × List DiffOp) :
    versionDiffs (intStr vd.1, .list (vd.2.map DiffOp.toBson)) = some vd := by
  unfold versionDiffs
  dsimp only [listOf]
  rw [signedDigits_intStr, Option.bind_some, Option.bind_some, mapM_map_some DiffOp.ofBson_toBson]
  rfl

theorem MongoRecord.ofBson_toBson (r : MongoRecord) : MongoRecord.ofBson r.toBson = some r := by
  obtain ⟨id, version, data, diffs⟩ := r
  have h := mapM_map_some versionDiffs_toBson
  unfold MongoRecord.toBson
  generalize hx : (diffs.map (fun vd => (intStr vd.1, Value.list (vd.2.map DiffOp.toBson)))) = x
  rw [MongoRecord.ofBson]
  dsimp only [dictOf, Option.bind_some]
  cases diffs with
  | nil => cases version <;> rfl
  | cons vd diffs =>
    have h' : x.mapM versionDiffs = some (vd :: diffs) := by rw [← hx]; exact h (vd :: diffs)
    have e : (vd :: diffs).isEmpty = false := rfl
    rw [e]
    cases version
    · show ((x.mapM versionDiffs).map _) = _
      rw [h']; rfl
    · show ((x.mapM versionDiffs).map _) = _
      rw [h']; rfl

theorem readDocument_bytes (F : FloatBytes) {d : Dict} (h : Bsonable F (.dict d)) (hz : bsonSize (.dict d) < 2 ^ 31) :
    readDocument F (bsonBytes F (.dict d)) = some (.dict d) := by
  have := readBson_bytes F (.dict d) h hz ((bsonBytes F (.dict d)).length + 1) [] (by omega)
  rw [List.append_nil, bsonType] at this
  unfold readDocument
  rw [this]

theorem intStr_noNul (v : Int) : NoNul (intStr v) := by
  obtain ⟨digits, h1, h2, -, -, -⟩ := intStr_form v
  intro h
  rw [h1] at h
  rcases List.mem_append.1 h with h | h
  · split at h
    · exact absurd (List.mem_singleton.1 h) (by decide)
    · cases h
  · have := h2 _ h
    revert this
    decide

theorem Bsonable.str {F : FloatBytes} (s : PyStr) : Bsonable F (.str s) :=
  ⟨⟨fun _ h => (nomatch h), fun _ h => (nomatch h)⟩, trivial⟩

theorem Bsonable.int {F : FloatBytes} {i : Int} (h : -2 ^ 63 ≤ i ∧ i < 2 ^ 63) : Bsonable F (.int i) :=
  ⟨⟨fun _ e => by cases e; exact h, fun _ h => (nomatch h)⟩, trivial⟩

theorem Bsonable.nat {F : FloatBytes} {i : Nat} (h : i < 2 ^ 63) : Bsonable F (.int i) :=
  Bsonable.int ⟨by have : (0 : Int) ≤ i := Int.natCast_nonneg i; norm_num, by norm_num; norm_num at h; omega⟩

theorem Bsonable.list {F : FloatBytes} {l : List Value} (h : ∀ v ∈ l, Bsonable F v) : Bsonable F (.list l) :=
  ⟨allLeavesList_iff.2 fun v hv => (h v hv).1, namesAllList_iff.2 fun v hv => (h v hv).2⟩

theorem Bsonable.dict {F : FloatBytes} {d : Dict} (h : ∀ kv ∈ d, NoNul kv.1 ∧ Bsonable F kv.2) : Bsonable F (.dict d) :=
  ⟨allLeavesDict_iff.2 fun v hv => (h v hv).2.1, namesAllDict_iff.2 fun v hv => ⟨(h v hv).1, (h v hv).2.2⟩⟩

/-- What BSON holds of the values that are not lists or dicts. -/
abbrev BsonLeaf (F : FloatBytes) (v : Value) : Prop := Int64 v ∧ F.Keeps v

theorem Ops.bsonable {F : FloatBytes} {o : DiffOp} (h1 : o.Leaves (BsonLeaf F)) (h2 : o.Names NoNul)
    (h3 : ∀ cs, o.ops.lc = some cs → ∀ c ∈ cs, c.1 < 2 ^ 63) (h4 : ∀ n, o.ops.ld = some n → n < 2 ^ 63) : Bsonable F o.ops.toBson := by
  have hk : ∀ s : String, s ∈ ["dn", "dd", "dc", "ln", "ld", "lc"] → NoNul s.toList := by
    intro s hs
    unfold NoNul
    revert s
    decide
  refine Bsonable.dict fun kv hm => ?_
  simp only [List.mem_append] at hm
  rcases hm with ((((hm | hm) | hm) | hm) | hm) | hm
  · cases e : o.ops.dn with
    | none => rw [e] at hm; cases hm
    | some d => rw [e] at hm; rw [List.mem_singleton.1 hm]; exact ⟨hk "dn" (by decide), h1.dn d e, h2.dn d e⟩
  · cases e : o.ops.dd with
    | none => rw [e] at hm; cases hm
    | some d =>
      rw [e] at hm; rw [List.mem_singleton.1 hm]
      exact ⟨hk "dd" (by decide), .list fun v hv => by obtain ⟨s, -, rfl⟩ := List.mem_map.1 hv; exact .str s⟩
  · cases e : o.ops.dc with
    | none => rw [e] at hm; cases hm
    | some d => rw [e] at hm; rw [List.mem_singleton.1 hm]; exact ⟨hk "dc" (by decide), h1.dc d e, h2.dc d e⟩
  · cases e : o.ops.ln with
    | none => rw [e] at hm; cases hm
    | some d => rw [e] at hm; rw [List.mem_singleton.1 hm]; exact ⟨hk "ln" (by decide), h1.ln d e, h2.ln d e⟩
  · cases e : o.ops.ld with
    | none => rw [e] at hm; cases hm
    | some n => rw [e] at hm; rw [List.mem_singleton.1 hm]; exact ⟨hk "ld" (by decide), .nat (h4 n e)⟩
  · cases e : o.ops.lc with
    | none => rw [e] at hm; cases hm
    | some cs =>
      rw [e] at hm; rw [List.mem_singleton.1 hm]
      refine ⟨hk "lc" (by decide), .list fun v hv => ?_⟩
      obtain ⟨c, hc, rfl⟩ := List.mem_map.1 hv
      refine .list fun w hw => ?_
      rcases List.mem_cons.1 hw with rfl | hw
      · exact .nat (h3 cs e c hc)
      · rw [List.mem_singleton.1 hw]; exact ⟨h1.lc cs e c hc, h2.lc cs e c hc⟩

theorem MongoRecord.bsonable {F : FloatBytes} {r : MongoRecord} (h1 : r.Leaves (BsonLeaf F)) (h2 : r.Names NoNul) (h3 : r.NumbersFit) :
    Bsonable F r.toBson := by
  have hk : ∀ s : String, s ∈ ["id", "data", "version", "diffs"] → NoNul s.toList := by
    intro s hs
    unfold NoNul
    revert s
    decide
  refine Bsonable.dict fun kv hm => ?_
  rcases List.mem_append.1 hm with hm | hm
  · rcases List.mem_cons.1 hm with rfl | hm
    · exact ⟨hk "id" (by decide), .str _⟩
    · rcases List.mem_cons.1 hm with rfl | hm
      · exact ⟨hk "data" (by decide), h1.data, h2.data⟩
      · rw [List.mem_singleton.1 hm]
        refine ⟨hk "version" (by decide), ?_⟩
        cases e : r.version with
        | none => exact ⟨⟨fun _ h => (nomatch h), fun _ h => (nomatch h)⟩, trivial⟩
        | some v => exact .int (h3.version v e)
  · split at hm
    · cases hm
    · rw [List.mem_singleton.1 hm]
      refine ⟨hk "diffs" (by decide), .dict fun kv hm => ?_⟩
      obtain ⟨vd, hvd, rfl⟩ := List.mem_map.1 hm
      refine ⟨intStr_noNul _, .list fun v hv => ?_⟩
      obtain ⟨o, ho, rfl⟩ := List.mem_map.1 hv
      refine .list fun w hw => ?_
      rcases List.mem_cons.1 hw with rfl | hw
      · refine .list fun w hw => ?_
        obtain ⟨e, he, rfl⟩ := List.mem_map.1 hw
        cases e with
        | key k => exact .str k
        | idx i => exact .nat ((h3.diffs vd hvd o ho).path _ he)
      · rw [List.mem_singleton.1 hw]
        exact Ops.bsonable (h1.diffs vd hvd o ho) (h2.diffs vd hvd o ho) (h3.diffs vd hvd o ho).lc (h3.diffs vd hvd o ho).ld

theorem readRecord_bytes {F : FloatBytes} {r : MongoRecord} (h : Bsonable F r.toBson) (hz : (r.bytes F).length < 2 ^ 31) :
    readRecord F (r.bytes F) = some r := by
  unfold MongoRecord.bytes at *
  rw [bsonBytes_length] at hz
  unfold readRecord
  have := readDocument_bytes F h hz
  rw [show Value.dict _ = r.toBson from rfl] at this
  rw [this, Option.bind_some, MongoRecord.ofBson_toBson]

end Splitgill
