import Verif.Spec.BsonOptions
import Verif.Proof.OptionsBytes
import Verif.Model.Size
/-!
# The options that are stored can be read from their bytes
-/

namespace Splitgill

/-- All that BSON needs of the documents of the options. -/
structure OptGood (d : OptDoc) : Prop where
  version : ∀ v, d.version = some v → -2 ^ 63 ≤ v ∧ v < 2 ^ 63
  keywordLength : -2 ^ 63 ≤ d.options.keywordLength ∧ d.options.keywordLength < 2 ^ 63
  segments : ∀ h ∈ d.options.geoHints, -2 ^ 63 ≤ h.2.2.2 ∧ h.2.2.2 < 2 ^ 63
  size : bsonSize { d with version := some (2 ^ 62) }.toBson < 2 ^ 31

theorem optDoc_size_le (d : OptDoc) : bsonSize d.toBson ≤ bsonSize { d with version := some (2 ^ 62) }.toBson := by
  obtain ⟨n, v, o⟩ := d
  have h : ∀ i : Int, bsonSize (.int i) ≤ bsonSize (.int (2 ^ 62)) := fun i => by
    simp only [bsonSize]
    split <;> norm_num
  cases v with
  | none =>
    simp only [OptDoc.toBson, bsonSize, bsonSizeDict]
    omega
  | some v =>
    have := h v
    simp only [OptDoc.toBson, bsonSize, bsonSizeDict] at this ⊢
    omega

theorem OptGood.read {d : OptDoc} (h : OptGood d) : (readDocument doubles (bsonBytes doubles d.toBson)).bind OptDoc.ofBson = some d := by
  have hb : Bsonable doubles d.toBson := OptDoc.bsonable h.version h.keywordLength h.segments
  have hz := Nat.lt_of_le_of_lt (optDoc_size_le d) h.size
  have e : d.toBson = .dict _ := rfl
  rw [e] at hb hz ⊢
  rw [readDocument_bytes doubles hb hz, Option.bind_some]
  exact OptDoc.ofBson_toBson _

theorem OptGood.given {db : PyStr} {o : ParsingOptions} (h : OptionsStorable db o) : OptGood ⟨db, none, o.toDoc⟩ := by
  refine ⟨fun _ e => (nomatch e), h.keywordLength, fun x hx => ?_, ?_⟩
  · obtain ⟨g, hg, rfl⟩ := List.mem_map.1 hx
    exact h.segments g hg
  · have := h.bytes
    rw [bsonBytes_length] at this
    exact this

/-- All documents of the options. -/
def OptsGood (m : Mongo) : Prop := ∀ d ∈ m.options, OptGood d

theorem OptsGood.rollback {m : Mongo} (h : OptsGood m) : OptsGood (rollbackOptions m) := fun d hd => h d (List.mem_filter.1 hd).1

theorem OptsGood.update {m : Mongo} (h : OptsGood m) {db : PyStr} {o : ParsingOptions} (ho : OptionsStorable db o) :
    OptsGood (updateOptionsNoCommit db o m) := by
  have h1 : OptsGood (if hasUncommittedOptions m then rollbackOptions m else m) := by
    split
    · exact h.rollback
    · exact h
  unfold updateOptionsNoCommit
  dsimp only
  split
  · exact h1
  · intro d hd
    rcases List.mem_append.1 hd with hd | hd
    · exact h1 d hd
    · rw [List.mem_singleton.1 hd]
      exact .given ho

theorem OptsGood.commitSized {m : Mongo} (h : OptsGood m) {db : PyStr} {limit : Nat} {before : MongoRecord → Bool} {clock : Int}
    (hd : OptionsStorable db defaultOptions) (hc : -2 ^ 63 ≤ clock ∧ clock < 2 ^ 63) : OptsGood (commitSized db limit before clock m).2 := by
  unfold Splitgill.commitSized acquire
  split
  · rename_i e
    split at e <;> cases e
    exact h
  · rename_i e
    split at e <;> cases e
    split
    · exact h
    · have last : ∀ m' : Mongo, OptsGood m' → OptsGood (if (m'.data db).all (fun d => d.version.isSome || fitsCommitted limit clock d) then
          ((.ok (some clock), release db { m'.setData db (commitColl clock (m'.data db)) with options := commitOptions clock m'.options }) :
            Except LevelErr (Option Int) × Mongo)
          else (.error .refused, release db (m'.setData db (commitSome limit clock before (m'.data db))))).2 := by
        intro m' h'
        split
        · intro d hm
          obtain ⟨e, he, rfl⟩ := List.mem_map.1 hm
          have := h' e he
          split
          · exact ⟨fun v e => by injection e with e; rw [← e]; exact hc, this.keywordLength, this.segments, this.size⟩
          · exact this
        · exact h'
      dsimp only
      split
      · exact last _ (OptsGood.update (m := { m with locks := m.locks ++ [db] }) h hd)
      · exact last { m with locks := m.locks ++ [db] } h

theorem OptsGood.runSized {U : Unicode} {m : Mongo} (h : OptsGood m) {db : PyStr} {limit : Nat} {stop : Reached} (c : ApiCall)
    (hd : OptionsStorable db defaultOptions) (ho : ∀ o ∈ c.givenOptions, OptionsStorable db o) (hc : ∀ t, c.clock? = some t → -2 ^ 63 ≤ t ∧ t < 2 ^ 63) :
    OptsGood (c.runSized U db limit stop m).2 := by
  cases c with
  | ingest mf rs doCommit clock =>
    simp only [ApiCall.runSized]
    split
    · exact h
    · split
      · exact h
      · split
        · exact OptsGood.commitSized (m := m.setData db _) h hd (hc clock (by simp_all [ApiCall.clock?]))
        · exact h
  | commit clock => exact h.commitSized hd (hc clock rfl)
  | updateOptions o doCommit clock =>
    have hu := h.update (ho o (by simp [ApiCall.givenOptions]))
    simp only [ApiCall.runSized]
    split
    · exact hu
    · split
      · exact hu.commitSized hd (hc clock (by simp_all [ApiCall.clock?]))
      · exact hu
  | rollbackOptions => exact h.rollback
  | rollbackRecords =>
    simp only [ApiCall.runSized]
    split
    · split
      · exact h
      · split
        · exact h
        · exact h
    · exact h

theorem afterSized_optsGood {U : Unicode} {db : PyStr} {limit : Nat} (hd : OptionsStorable db defaultOptions) :
    ∀ {calls : List (ApiCall × Reached)} {m : Mongo}, OptsGood m → (∀ o ∈ (calls.map Prod.fst).flatMap ApiCall.givenOptions, OptionsStorable db o) →
      (∀ t ∈ (calls.map Prod.fst).filterMap ApiCall.clock?, -2 ^ 63 ≤ t ∧ t < 2 ^ 63) → OptsGood (afterSized U db limit m calls)
  | [], _, h, _, _ => h
  | c :: calls, m, h, ho, ht => by
    rw [afterSized, List.foldl_cons]
    refine afterSized_optsGood (calls := calls) hd (h.runSized c.1 hd (fun o hm => ho o ?_) (fun t e => ht t ?_)) (fun o hm => ho o ?_) (fun t hm => ht t ?_)
    · rw [List.map_cons, List.flatMap_cons]; exact List.mem_append_left _ hm
    · exact List.mem_filterMap.2 ⟨c.1, List.mem_cons_self, e⟩
    · rw [List.map_cons, List.flatMap_cons]; exact List.mem_append_right _ hm
    · obtain ⟨x, hx, e⟩ := List.mem_filterMap.1 hm
      exact List.mem_filterMap.2 ⟨x, List.mem_cons_of_mem _ hx, e⟩

end Splitgill
