import Verif.Proof.Levels
import Verif.Proof.Life
/-!
# Writing documents of limited levels
-/

namespace Splitgill

/-! ## Writing -/

theorem acceptedOps_prefix (limit : Nat) : ∀ (ops : List MongoOp) (c : Coll), acceptedOps limit c ops <+: ops
  | [], _ => List.prefix_refl _
  | o :: ops, c => by
    rw [acceptedOps]
    split
    · exact (List.prefix_cons_inj o).2 (acceptedOps_prefix limit ops _)
    · exact List.nil_prefix

theorem writeLevels_spec (limit sent : Nat) : ∀ (lists : List (List MongoOp)) (c : Coll),
    ((writeLevels limit sent c lists).2 = true → (writeLevels limit sent c lists).1 = bulkWrite c lists.flatten) ∧
    ∃ n, (writeLevels limit sent c lists).1 = bulkWrite c (lists.flatten.take n)
  | [], c => ⟨fun _ => rfl, 0, rfl⟩
  | ops :: rest, c => by
    rw [writeLevels]
    split
    · obtain ⟨h1, n, h2⟩ := writeLevels_spec limit sent rest (bulkWrite c ops)
      refine ⟨fun h => ?_, ops.length + n, ?_⟩
      · rw [h1 h, List.flatten_cons, bulkWrite_append]
      · rw [h2, List.flatten_cons, List.take_length_add_append, bulkWrite_append]
    · obtain ⟨t, ht⟩ := acceptedOps_prefix limit ops c
      refine ⟨fun h => (nomatch h), min sent (acceptedOps limit c ops).length, ?_⟩
      dsimp only
      congr 1
      rw [List.flatten_cons]
      exact take_prefix ht

/-- What a call does: what it does without the limit, or it raises and is as a call that was stopped. -/
theorem runLevels_spec (U : Unicode) (db : PyStr) (limit sent : Nat) (m : Mongo) (c : ApiCall) :
    ∃ st, DoneOrStopped c st ∧ (c.runLevels U db limit sent m).2 = st.run U db m ∧
      ((c.runLevels U db limit sent m).1 ≠ .error .refused →
        st = .call c ∧ ∀ ret, (c.runLevels U db limit sent m).1 = .ok ret ↔ (c.run U db m).1 = .ok ret) := by
  have other : ∀ c : ApiCall, 
      c.runLevels U db limit sent m = (match c.run U db m with | (.ok v, m) => (.ok v, m) | (.error e, m) => (.error (.api e), m)) →
      ∃ st, DoneOrStopped c st ∧ (c.runLevels U db limit sent m).2 = st.run U db m ∧
      ((c.runLevels U db limit sent m).1 ≠ .error .refused →
        st = .call c ∧ ∀ ret, (c.runLevels U db limit sent m).1 = .ok ret ↔ (c.run U db m).1 = .ok ret) := by
    intro c e
    have h3 : (c.runLevels U db limit sent m).2 = (c.run U db m).2 := by
      rw [e]; rcases c.run U db m with ⟨_ | _, _⟩ <;> rfl
    refine ⟨.call c, .inl rfl, h3, fun _ => ⟨rfl, fun ret => ?_⟩⟩
    rw [e]
    rcases c.run U db m with ⟨_ | _, _⟩
    · exact ⟨fun h => (nomatch h), fun h => (nomatch h)⟩
    · exact ⟨fun h => by cases h; rfl, fun h => by cases h; rfl⟩
  cases c with
  | ingest mf rs dc clock =>
    cases hs : ingestSized U mf 200 (m.data db) rs with
    | error e =>
      have e1 : ApiCall.runLevels U db limit sent m (.ingest mf rs dc clock) = (.error (.api (.py e)), m) := by simp only [ApiCall.runLevels, hs]
      have e2 : ApiCall.run U db m (.ingest mf rs dc clock) = (.error (.py e), m) := by
        simp only [ApiCall.run, Splitgill.ingest, hs, bind, Except.bind]
      refine ⟨.call _, .inl rfl, by rw [e1, Step.run, e2], fun _ => ⟨rfl, fun ret => ?_⟩⟩
      rw [e1, e2]
      exact ⟨fun h => (nomatch h), fun h => (nomatch h)⟩
    | ok s =>
      obtain ⟨h1, n, h2⟩ := writeLevels_spec limit sent s.written (m.data db)
      cases hw : writeLevels limit sent (m.data db) s.written with
      | mk c b =>
        rw [hw] at h1 h2
        cases b with
        | false =>
          have e1 : ApiCall.runLevels U db limit sent m (.ingest mf rs dc clock) = (.error .refused, m.setData db c) := by
            simp only [ApiCall.runLevels, hs, hw]
          refine ⟨.ingestStops mf rs n, .inr (.inl ⟨mf, rs, dc, clock, n, rfl, rfl⟩), ?_, fun h => absurd (by rw [e1]) h⟩
          rw [e1]
          simp only [Step.run, Splitgill.ingestCrash, hs, bind, Except.bind]
          rw [← h2]
        | true =>
          have hc : c = s.coll := by rw [ingestSized_coll hs]; exact h1 rfl
          have e2 : Splitgill.ingest U mf (m.data db) rs = .ok c := by
            simp only [Splitgill.ingest, hs, bind, Except.bind, hc]
          cases dc with
          | false =>
            have e1 : ApiCall.runLevels U db limit sent m (.ingest mf rs false clock) = (.ok none, m.setData db c) := by
              simp only [ApiCall.runLevels, hs, hw, Bool.false_eq_true, if_false]
            have e3 : ApiCall.run U db m (.ingest mf rs false clock) = (.ok none, m.setData db c) := by
              simp only [ApiCall.run, e2, Bool.false_eq_true, if_false]
            refine ⟨.call _, .inl rfl, by rw [e1, Step.run, e3], fun _ => ⟨rfl, fun ret => ?_⟩⟩
            rw [e1, e3]
            exact ⟨fun h => by cases h; rfl, fun h => by cases h; rfl⟩
          | true =>
            have e1 : ApiCall.runLevels U db limit sent m (.ingest mf rs true clock) =
                match Splitgill.commit db clock (m.setData db c) with | (.ok v, m) => (.ok v, m) | (.error e, m) => (.error (.api e), m) := by
              simp only [ApiCall.runLevels, hs, hw, if_true]
              rcases Splitgill.commit db clock (m.setData db c) with ⟨_ | _, _⟩ <;> rfl
            have e3 : ApiCall.run U db m (.ingest mf rs true clock) = Splitgill.commit db clock (m.setData db c) := by
              simp only [ApiCall.run, e2, if_true]
            have h5 : (ApiCall.runLevels U db limit sent m (.ingest mf rs true clock)).2 = (Splitgill.commit db clock (m.setData db c)).2 := by
              rw [e1]; rcases Splitgill.commit db clock (m.setData db c) with ⟨_ | _, _⟩ <;> rfl
            refine ⟨.call _, .inl rfl, by rw [h5, Step.run, e3], fun _ => ⟨rfl, fun ret => ?_⟩⟩
            rw [e1, e3]
            rcases Splitgill.commit db clock (m.setData db c) with ⟨_ | _, _⟩
            · exact ⟨fun h => (nomatch h), fun h => (nomatch h)⟩
            · exact ⟨fun h => by cases h; rfl, fun h => by cases h; rfl⟩
  | rollbackRecords =>
    by_cases hu : hasUncommittedData (m.data db) = true
    · cases ho : rollbackOps (m.data db) with
      | error e =>
        have e1 : ApiCall.runLevels U db limit sent m .rollbackRecords = (.error (.api (.py e)), m) := by
          simp only [ApiCall.runLevels, hu, if_true, ho]
        have e2 : ApiCall.run U db m .rollbackRecords = (.error (.py e), m) := by
          simp only [ApiCall.run, Splitgill.rollbackRecords, hu, if_true, ho]
        refine ⟨.call _, .inl rfl, by rw [e1, Step.run, e2], fun _ => ⟨rfl, fun ret => ?_⟩⟩
        rw [e1, e2]
        exact ⟨fun h => (nomatch h), fun h => (nomatch h)⟩
      | ok ops =>
        have hfl : (partition ops 200).flatten = ops := partition_flatten (by decide) ops
        obtain ⟨h1, n, h2⟩ := writeLevels_spec limit sent (partition ops 200) (m.data db)
        rw [hfl] at h1 h2
        cases hw : writeLevels limit sent (m.data db) (partition ops 200) with
        | mk c b =>
          rw [hw] at h1 h2
          cases b with
          | false =>
            have e1 : ApiCall.runLevels U db limit sent m .rollbackRecords = (.error .refused, m.setData db c) := by
              simp only [ApiCall.runLevels, hu, if_true, ho, hw]
            refine ⟨.rollbackStops n, .inr (.inr ⟨rfl, n, rfl⟩), ?_, fun h => absurd (by rw [e1]) h⟩
            rw [e1]
            simp only [Step.run, Splitgill.rollbackCrash, ho, hu, if_true, bind, Except.bind]
            rw [← h2]
          | true =>
            have hc : c = (partition ops 200).foldl bulkWrite (m.data db) := by rw [foldl_bulkWrite, hfl]; exact h1 rfl
            have e1 : ApiCall.runLevels U db limit sent m .rollbackRecords = (.ok none, m.setData db c) := by
              simp only [ApiCall.runLevels, hu, if_true, ho, hw]
            have e2 : ApiCall.run U db m .rollbackRecords = (.ok none, m.setData db c) := by
              simp only [ApiCall.run, Splitgill.rollbackRecords, hu, if_true, ho, hc]
            refine ⟨.call _, .inl rfl, by rw [e1, Step.run, e2], fun _ => ⟨rfl, fun ret => ?_⟩⟩
            rw [e1, e2]
            exact ⟨fun h => by cases h; rfl, fun h => by cases h; rfl⟩
    · have e1 : ApiCall.runLevels U db limit sent m .rollbackRecords = (.ok none, m) := by
        simp only [ApiCall.runLevels, hu, Bool.false_eq_true, if_false]
      have e2 : ApiCall.run U db m .rollbackRecords = (.ok none, m.setData db (m.data db)) := by
        simp only [ApiCall.run, Splitgill.rollbackRecords, hu, Bool.false_eq_true, if_false]
      refine ⟨.call _, .inl rfl, by rw [e1, Step.run, e2, setData_self], fun _ => ⟨rfl, fun ret => ?_⟩⟩
      rw [e1, e2]
      exact ⟨fun h => by cases h; rfl, fun h => by cases h; rfl⟩
  | commit clock => exact other _ rfl
  | updateOptions o dc clock => exact other _ rfl
  | rollbackOptions => exact other _ rfl

/-! ## Operations on shallow data -/

/-- The values in an operation are of data with at most `n` levels. -/
def MongoOp.Nested (n : Nat) : MongoOp → Prop
  | .insert _ data => bsonLevels (.dict data) ≤ n
  | .setData _ data => bsonLevels (.dict data) ≤ n
  | .setDiff _ data _ changes => bsonLevels (.dict data) ≤ n ∧ ∀ o ∈ changes, bsonLevels o.toBson ≤ n + 2
  | .revert _ data _ _ => bsonLevels (.dict data) ≤ n
  | .delete _ => True

/-- The same of a document. -/
structure MongoRecord.Nested (n : Nat) (r : MongoRecord) : Prop where
  data : bsonLevels (.dict r.data) ≤ n
  diffs : ∀ vd ∈ r.diffs, ∀ o ∈ vd.2, bsonLevels o.toBson ≤ n + 2

theorem MongoRecord.Nested.levels {n : Nat} {r : MongoRecord} (h : r.Nested n) : bsonLevels r.toBson ≤ n + 5 :=
  record_levels_le.2 ⟨Nat.le_trans h.data (by omega), h.diffs⟩

theorem nested_updateFirst {n : Nat} {id : PyStr} {f : MongoRecord → MongoRecord} (hf : ∀ r, r.Nested n → (f r).Nested n) :
    ∀ {c : Coll}, (∀ r ∈ c, r.Nested n) → ∀ r ∈ updateFirst id f c, r.Nested n
  | [], h => h
  | d :: r, h => by
    have hd := h d List.mem_cons_self
    have hr : ∀ x ∈ r, x.Nested n := fun x hx => h x (List.mem_cons_of_mem _ hx)
    rw [Splitgill.updateFirst]
    split
    · exact fun x hx => (List.mem_cons.1 hx).elim (fun e => e ▸ hf d hd) (hr x)
    · exact fun x hx => (List.mem_cons.1 hx).elim (fun e => e ▸ hd) (nested_updateFirst hf hr x)

theorem nested_applyOp {n : Nat} {c : Coll} (h : ∀ r ∈ c, r.Nested n) {o : MongoOp} (ho : o.Nested n) : ∀ r ∈ applyOp c o, r.Nested n := by
  cases o with
  | insert id data =>
    exact fun x hx => (List.mem_append.1 hx).elim (h x) (fun e => by
      rw [List.mem_singleton] at e
      subst e
      exact ⟨ho, fun _ hm => nomatch hm⟩)
  | setData id data => exact nested_updateFirst (f := fun d => { d with data := data }) (fun r hr => ⟨ho, hr.diffs⟩) h
  | setDiff id data v changes =>
    refine nested_updateFirst (fun r hr => ⟨ho.1, fun vd hm => ?_⟩) h
    rcases mem_aset hm with e | hm
    · subst e; exact ho.2
    · exact hr.diffs vd hm
  | revert id data v all =>
    refine nested_updateFirst (fun r hr => ⟨ho, fun vd hm => ?_⟩) h
    dsimp only at hm
    split at hm
    · cases hm
    · exact hr.diffs vd (mem_of_mem_aerase hm)
  | delete id => exact fun x hx => h x ((deleteFirst_sublist id c).subset hx)

theorem nested_bulkWrite {n : Nat} : ∀ {ops : List MongoOp} {c : Coll}, (∀ r ∈ c, r.Nested n) → (∀ o ∈ ops, o.Nested n) →
    ∀ r ∈ bulkWrite c ops, r.Nested n
  | [], _, h, _ => h
  | o :: ops, c, h, ho => by
    rw [Splitgill.bulkWrite, List.foldl_cons]
    exact nested_bulkWrite (ops := ops) (nested_applyOp h (ho o List.mem_cons_self)) (fun o hm => ho o (List.mem_cons_of_mem _ hm))

theorem acceptedOps_all {n limit : Nat} (hl : n + 5 ≤ limit) : ∀ {ops : List MongoOp} {c : Coll}, (∀ r ∈ c, r.Nested n) → (∀ o ∈ ops, o.Nested n) →
    acceptedOps limit c ops = ops
  | [], _, _, _ => rfl
  | o :: ops, c, h, ho => by
    have h1 := nested_applyOp h (ho o List.mem_cons_self)
    rw [acceptedOps, if_pos, acceptedOps_all hl h1 (fun o hm => ho o (List.mem_cons_of_mem _ hm))]
    rw [levelsOk, List.all_eq_true]
    intro d hd
    rw [Bool.or_eq_true, decide_eq_true_eq, decide_eq_true_eq]
    exact .inr (Nat.le_trans (h1 d hd).levels hl)

theorem writeLevels_all {n limit sent : Nat} (hl : n + 5 ≤ limit) : ∀ {lists : List (List MongoOp)} {c : Coll}, (∀ r ∈ c, r.Nested n) →
    (∀ o ∈ lists.flatten, o.Nested n) → (writeLevels limit sent c lists).2 = true
  | [], _, _, _ => rfl
  | ops :: rest, c, h, ho => by
    have h1 : ∀ o ∈ ops, o.Nested n := fun o hm => ho o (by rw [List.flatten_cons, List.mem_append]; exact .inl hm)
    rw [writeLevels, if_pos (by rw [acceptedOps_all hl h h1])]
    exact writeLevels_all hl (nested_bulkWrite h h1) (fun o hm => ho o (by rw [List.flatten_cons, List.mem_append]; exact .inr hm))

/-! ## Making operations -/

theorem Rep.Q_data {K : DataClass} {d : MongoRecord} {h : Hist} (hr : Rep K (some d) h) : K.Q d.data := by
  obtain ⟨cs, p⟩ := h
  cases p with
  | some p => exact (show DocRep K d none p cs from hr).data.left
  | none =>
    cases cs with
    | nil => exact hr.elim
    | cons vd cs => exact (show DocRep K d (some vd.1) vd.2 cs ∧ _ from hr).1.data.left

/-- What `revert_record` gives. -/
theorem Rep.revert_Q {K : DataClass} {d : MongoRecord} {h : Hist} (hr : Rep K (some d) h) {r : MongoRecord} {op : MongoOp}
    (he : revertRecord d = .ok (some (r, op))) : K.Q r.data ∧ ∃ v all, op = .revert d.id r.data v all := by
  obtain ⟨cs, p⟩ := h
  cases p with
  | some p =>
    have hr : DocRep K d none p cs := hr
    cases cs with
    | nil =>
      have hd : d.diffs = [] := by
        cases hd : d.diffs with
        | nil => rfl
        | cons kv _ => have := (hr.keys kv.1).1 (by simp [hd]); simp at this
      simp [revertRecord, hd] at he
    | cons vd cs =>
      obtain ⟨v, dd⟩ := vd
      obtain ⟨doc', h1, h2, _⟩ := hr.revert
      rw [h1] at he
      cases he
      exact ⟨h2.data.left, v, _, rfl⟩
  | none =>
    cases cs with
    | nil => exact hr.elim
    | cons vd cs =>
      have hr : DocRep K d (some vd.1) vd.2 cs ∧ _ := hr
      rw [revertRecord_committed hr.1.version] at he
      cases he

theorem computeChanges_nested {n : Nat} {mf : Option PyStr} {a b a' : Dict} {ops : List DiffOp} (ha : (nestedClass n).Q a)
    (hb : (nestedClass n).Q b) (h : computeChanges mf a b = .ok (a', ops)) :
    bsonLevels (.dict a') ≤ n ∧ ∀ o ∈ ops, bsonLevels o.toBson ≤ n + 2 := by
  have plain : ∀ {a b a' : Dict} {ops}, (nestedClass n).Q a → (nestedClass n).Q b →
      (do .ok (a, ← diffDict a b) : Except PyErr (Dict × List DiffOp)) = .ok (a', ops) →
      bsonLevels (.dict a') ≤ n ∧ ∀ o ∈ ops, bsonLevels o.toBson ≤ n + 2 := by
    intro a b a' ops ha hb h
    cases hd : diffDict a b with
    | error e => rw [hd] at h; cases h
    | ok x => rw [hd] at h; cases h; exact ⟨(nestedClass_Q.1 ha).2, diffDict_nested (nestedClass_Q.1 hb).2 hd⟩
  unfold computeChanges at h
  cases mf with
  | none => exact plain ha hb h
  | some m =>
    dsimp only at h
    split at h
    · rename_i nv ev h1 h2
      have ha' := (DEq_pop ha h1).left
      have hb' := (DEq_pop hb h2).left
      cases hd : diffDict (aerase m a) (aerase m b) with
      | error e => simp only [hd, bind, Except.bind] at h; cases h
      | ok x =>
        simp only [hd, bind, Except.bind] at h
        split at h
        · cases h
          exact ⟨(nestedClass_Q.1 ha').2, fun _ hm => nomatch hm⟩
        · exact plain ha' hb' h
    · exact plain ha hb h

theorem opFor_nested {n : Nat} {U : Unicode} {mf : Option PyStr} {ex : Option MongoRecord} {hist : Hist} {r : Record} {o : MongoOp}
    (hex : Rep (nestedClass n) ex hist) (hr : (nestedClass n).Q (prepareRecordData U r)) (h : opFor U mf ex r = .ok (some o)) : o.Nested n := by
  have hr' := (nestedClass_Q.1 hr).2
  cases ex with
  | none =>
    simp only [opFor] at h
    split at h
    · cases h
    · cases h; exact hr'
  | some d =>
    simp only [opFor, opForExisting] at h
    split at h
    · split at h
      · cases h; trivial
      · split at h
        · cases h
        · split at h
          · cases h
          · cases h; exact hr'
    · split at h
      · cases h
      · rename_i e1 rop hrr
        have key : (nestedClass n).Q e1.data ∧ ∀ op, rop = some op → ∃ i x v all, op = .revert i x v all := by
          unfold revertIfPending at hrr
          split at hrr
          · cases hrr
          · rename_i x
            cases hrr
            have := Rep.revert_Q hex x
            exact ⟨this.1, fun op e => by cases e; obtain ⟨v, all, e⟩ := this.2; exact ⟨_, _, v, all, e⟩⟩
          · cases hrr
            exact ⟨Rep.Q_data hex, fun op e => nomatch e⟩
        unfold opForCommitted at h
        split at h
        · cases h
        · rename_i nd changes hc
          have hx := computeChanges_nested hr key.1 hc
          split at h
          · obtain ⟨op, h1, rfl⟩ := Option.map_eq_some_iff.1 (Except.ok.inj h)
            obtain ⟨i, x, v, all, rfl⟩ := key.2 op h1
            exact (nestedClass_Q.1 (DEq_putBack (DEq.refl key.1)).left).2
          · split at h
            · cases h; exact hx
            · cases h

theorem rollbackOps_nested {n : Nat} : ∀ {c : Coll} {ops : List MongoOp}, (∀ d ∈ c, ∃ h, Rep (nestedClass n) (some d) h) →
    rollbackOps c = .ok ops → ∀ o ∈ ops, o.Nested n
  | [], ops, _, h => by cases h; exact fun _ hm => nomatch hm
  | d :: c, ops, hc, h => by
    rw [rollbackOps] at h
    cases h1 : rollbackOp d with
    | error e => rw [h1] at h; cases h
    | ok op =>
      cases h2 : rollbackOps c with
      | error e => rw [h1, h2] at h; cases h
      | ok os =>
        rw [h1, h2] at h
        cases h
        intro o ho
        rcases List.mem_append.1 ho with ho | ho
        · rw [Option.mem_toList] at ho
          subst ho
          unfold rollbackOp at h1
          split at h1
          · cases h1
          · split at h1
            · cases h1; trivial
            · cases hx : revertRecord d with
              | error e => rw [hx] at h1; cases h1
              | ok y =>
                rw [hx] at h1
                cases y with
                | none => cases h1
                | some z =>
                  obtain ⟨z, op⟩ := z
                  cases h1
                  obtain ⟨hh, hr⟩ := hc d List.mem_cons_self
                  obtain ⟨k1, v, all, k2⟩ := Rep.revert_Q hr hx
                  show MongoOp.Nested n op
                  rw [k2]
                  exact (nestedClass_Q.1 k1).2
        · exact rollbackOps_nested (fun x hx => hc x (List.mem_cons_of_mem _ hx)) h2 o ho

end Splitgill
