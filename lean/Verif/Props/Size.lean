import Verif.Proof.Size3
import Verif.Props.Levels
/-!
# C119: how large the document of a record can be
-/

namespace Splitgill.Props
open Splitgill

/-! ## C119 -/

/-- **C119 in full**: if each record that is given is small enough to be stored and committed as a new record, no call is refused, however
many calls there are. -/
def C119_full (limit : Nat) : Prop :=
  ∀ (U : Unicode) (db : PyStr) (calls : List (ApiCall × Reached)) (c : ApiCall) (stop : Reached), Orderly (calls.map Prod.fst ++ [c]) →
    (∀ x ∈ calls.map Prod.fst ++ [c], ∀ r ∈ x.stream, ∀ v, (⟨r.id, some v, prepareRecordData U r, []⟩ : MongoRecord).size ≤ limit) →
    (c.runSized U db limit stop (afterSized U db limit Mongo.empty calls)).1 ≠ .error .refused

/-- **C119**: all that is stored is within the limit. -/
theorem C119_stored (U : Unicode) (db : PyStr) (limit : Nat) (calls : List (ApiCall × Reached)) :
    ∀ r ∈ (afterSized U db limit Mongo.empty calls).data db, r.size ≤ limit := by
  suffices h : ∀ (calls : List (ApiCall × Reached)) (m : Mongo), SizeWithin limit (m.data db) → SizeWithin limit ((afterSized U db limit m calls).data db) from
    h calls Mongo.empty (fun _ hm => nomatch hm)
  intro calls
  induction calls with
  | nil => exact fun _ h => h
  | cons c calls ih =>
    intro m h
    rw [afterSized, List.foldl_cons]
    exact ih _ (h.run c.1)

/-- **C119**: so a record has a limited number of versions: each takes at least eight bytes. -/
theorem C119_versions (U : Unicode) (db : PyStr) (limit : Nat) (calls : List (ApiCall × Reached)) (id : PyStr) (items : List VersionedData)
    (h : history ((afterSized U db limit Mongo.empty calls).data db) id = .ok items) : 8 * items.length ≤ limit :=
  history_size (C119_stored U db limit calls) h

/-! ### What a refused call leaves -/

theorem sized_steps (U : Unicode) (db : PyStr) (limit : Nat) : ∀ (calls : List (ApiCall × Reached)) (m : Mongo),
    ∃ steps, List.Forall₂ StepsOf (calls.map Prod.fst) steps ∧ afterSized U db limit m calls = runSteps U db m steps.flatten
  | [], _ => ⟨[], .nil, rfl⟩
  | c :: calls, m => by
    obtain ⟨st, h2, h3⟩ := runSized_steps (U := U) (db := db) (limit := limit) (stop := c.2) (m := m) c.1
    obtain ⟨steps, h4, h5⟩ := sized_steps U db limit calls (c.1.runSized U db limit c.2 m).2
    refine ⟨st :: steps, .cons h2 h4, ?_⟩
    rw [afterSized, List.foldl_cons, List.flatten_cons, runSteps, List.foldl_append]
    rw [afterSized, runSteps] at h5
    rw [h5, h3]
    rfl

theorem stepsOf_clock {c : ApiCall} {st : List Step} (h : StepsOf c st) : (st.filterMap Step.clock?).Sublist c.clock?.toList := by
  cases h with
  | done c =>
    rw [List.filterMap_cons, Step.clock?, List.filterMap_nil]
    cases c.clock? <;> exact List.Sublist.refl _
  | ingest mf rs dc clock n => exact List.nil_sublist _
  | rollback n => exact List.nil_sublist _
  | commit clock picks => exact List.Sublist.refl _
  | ingestCommit mf rs clock picks => exact List.Sublist.refl _
  | optionsCommit o clock picks => exact List.Sublist.refl _

theorem stepsOf_stream {c : ApiCall} {st : List Step} (h : StepsOf c st) : ∀ x ∈ st, x.stream = c.stream ∨ x.stream = [] := by
  intro x hx
  cases h with
  | done c => rw [List.mem_singleton] at hx; subst hx; exact .inl rfl
  | ingest mf rs dc clock n => rw [List.mem_singleton] at hx; subst hx; exact .inl rfl
  | rollback n => rw [List.mem_singleton] at hx; subst hx; exact .inr rfl
  | commit clock picks => rw [List.mem_singleton] at hx; subst hx; exact .inr rfl
  | ingestCommit mf rs clock picks =>
    rcases List.mem_cons.1 hx with rfl | hx
    · exact .inl rfl
    · rw [List.mem_singleton] at hx; subst hx; exact .inr rfl
  | optionsCommit o clock picks =>
    rcases List.mem_cons.1 hx with rfl | hx
    · exact .inl rfl
    · rw [List.mem_singleton] at hx; subst hx; exact .inr rfl

theorem stepsOf_orderly {calls : List ApiCall} {steps : List (List Step)} (h : List.Forall₂ StepsOf calls steps) (ho : Orderly calls) :
    OrderlySteps steps.flatten := by
  refine ⟨ho.clock.sublist ?_, ?_⟩
  · clear ho
    induction h with
    | nil => exact .slnil
    | cons h _ ih =>
      rename_i c st cs ss _
      rw [List.flatten_cons, List.filterMap_append, List.filterMap_cons]
      have h1 := stepsOf_clock h
      cases hc : c.clock? with
      | none =>
        rw [hc] at h1
        rw [List.sublist_nil.1 h1]
        exact ih
      | some t =>
        rw [hc] at h1
        exact h1.append ih
  · have hs := ho.noSpan
    clear ho
    induction h with
    | nil => exact fun _ h => nomatch h
    | cons h _ ih =>
      intro st hst
      rw [List.flatten_cons] at hst
      rcases List.mem_append.1 hst with hst | hst
      · rcases stepsOf_stream h st hst with e | e
        · rw [e]; exact hs _ List.mem_cons_self
        · rw [e]; exact List.Pairwise.nil
      · exact ih (fun c hc => hs c (List.mem_cons_of_mem _ hc)) st hst

/-- **C119**: a call that is refused is one that was stopped half way. So the histories of records are as in C75, and a later sync as in C76. -/
theorem C119_steps (U : Unicode) (db : PyStr) (limit : Nat) (calls : List (ApiCall × Reached)) (ho : Orderly (calls.map Prod.fst)) :
    ∃ steps, List.Forall₂ StepsOf (calls.map Prod.fst) steps ∧ OrderlySteps steps.flatten ∧
      afterSized U db limit Mongo.empty calls = afterSteps U db steps.flatten := by
  obtain ⟨steps, h1, h2⟩ := sized_steps U db limit calls Mongo.empty
  exact ⟨steps, h1, stepsOf_orderly h1 ho, h2⟩

/-- **C119**: if all documents that the calls make without the limit are within it, no call is refused, and all is as without the limit.
Missing: data that is given alone is within the limit, see `C119_refuted`. -/
theorem C119_partial (U : Unicode) (db : PyStr) (limit : Nat) (calls : List (ApiCall × Reached)) (c : ApiCall) (stop : Reached)
    (ho : Orderly (calls.map Prod.fst ++ [c]))
    (hd : ∀ pre, pre <+: calls.map Prod.fst ++ [c] → ∀ r ∈ (afterCalls U db pre).data db, r.size ≤ limit) :
    let m := afterCalls U db (calls.map Prod.fst)
    afterSized U db limit Mongo.empty calls = m ∧ (c.runSized U db limit stop m).1 ≠ .error .refused ∧
      (c.runSized U db limit stop m).2 = (c.run U db m).2 ∧ ∀ ret, (c.runSized U db limit stop m).1 = .ok ret ↔ (c.run U db m).1 = .ok ret := by
  have one : ∀ (cs : List ApiCall) (c : ApiCall) (stop : Reached), Orderly (cs ++ [c]) →
      (∀ r ∈ (afterCalls U db (cs ++ [c])).data db, r.size ≤ limit) →
      (c.runSized U db limit stop (afterCalls U db cs)).1 ≠ .error .refused ∧
      (c.runSized U db limit stop (afterCalls U db cs)).2 = (c.run U db (afterCalls U db cs)).2 ∧
      ∀ ret, (c.runSized U db limit stop (afterCalls U db cs)).1 = .ok ret ↔ (c.run U db (afterCalls U db cs)).1 = .ok ret := by
    intro cs c stop ho hd
    have hl := (life (K := fun _ => plainClass) (U := U) (db := db) (fun c _ => fits_plain U c.stream) ho.left).toLifeInv.rep
    rw [afterCalls_append] at hd
    have := run_accepted (stop := stop) hl (fits_plain U c.stream) (ho.noSpan c (List.mem_append_right _ (List.mem_singleton.2 rfl))) hd
    exact ⟨this, runSized_done this⟩
  refine ⟨?_, one _ c stop ho (hd _ (List.prefix_refl _))⟩
  replace ho := ho.left
  replace hd : ∀ pre, pre <+: calls.map Prod.fst → ∀ r ∈ (afterCalls U db pre).data db, r.size ≤ limit :=
    fun pre hp => hd pre (hp.trans (List.prefix_append _ _))
  clear c stop
  induction calls using List.reverseRecOn with
  | nil => rfl
  | append_singleton calls c ih =>
    rw [List.map_append] at ho hd ⊢
    have e : afterSized U db limit Mongo.empty (calls ++ [c]) = (c.1.runSized U db limit c.2 (afterSized U db limit Mongo.empty calls)).2 := by
      rw [afterSized, List.foldl_append]
      rfl
    rw [e, ih ho.left (fun pre hp => hd pre (hp.trans (List.prefix_append _ _)))]
    have := (one _ c.1 c.2 ho (hd _ (List.prefix_refl _))).2.1
    rw [this]
    exact (afterCalls_append U db (calls.map Prod.fst) [c.1]).symm

/-- **C119**: and only then: after calls of which none was refused, all is as without the limit, and all documents are within it. -/
theorem C119_only (U : Unicode) (db : PyStr) (limit : Nat) (calls : List (ApiCall × Reached))
    (h : ∀ pre c, pre ++ [c] <+: calls → (c.1.runSized U db limit c.2 (afterSized U db limit Mongo.empty pre)).1 ≠ .error .refused) :
    afterSized U db limit Mongo.empty calls = afterCalls U db (calls.map Prod.fst) ∧
      ∀ r ∈ (afterCalls U db (calls.map Prod.fst)).data db, r.size ≤ limit := by
  have key : afterSized U db limit Mongo.empty calls = afterCalls U db (calls.map Prod.fst) := by
    induction calls using List.reverseRecOn with
    | nil => rfl
    | append_singleton calls c ih =>
      have ih := ih (fun pre x hp => h pre x (hp.trans (List.prefix_append _ _)))
      have e : afterSized U db limit Mongo.empty (calls ++ [c]) = (c.1.runSized U db limit c.2 (afterSized U db limit Mongo.empty calls)).2 := by
        rw [afterSized, List.foldl_append]
        rfl
      have h1 := (runSized_done (h calls c (List.prefix_refl _))).1
      rw [e, h1, ih, List.map_append]
      exact (afterCalls_append U db (calls.map Prod.fst) [c.1]).symm
  exact ⟨key, by rw [← key]; exact C119_stored U db limit calls⟩

/-! ### Records that cannot be committed -/

/-- **C119**: a commit is refused if and only if it gets the lock and there is an uncommitted record that is too large with a version. -/
theorem C119_commit (U : Unicode) (db : PyStr) (limit : Nat) (stop : Reached) (m : Mongo) (clock : Int) :
    ((ApiCall.commit clock).runSized U db limit stop m).1 = .error .refused ↔
      isLocked db m = false ∧ ∃ d ∈ m.data db, d.version = none ∧ limit < ({ d with version := some clock } : MongoRecord).size := by
  rw [isLocked, decide_eq_false_iff_not]
  exact commitSized_refused

/-- **C119**: such a record stops all commits of the database, now and after any calls that do not ingest its id and do not roll back. (Versions
are milliseconds, more than 2³¹ since 1970-01-25.) -/
theorem C119_blocked (U : Unicode) (db : PyStr) (limit : Nat) (m : Mongo) (hl : isLocked db m = false) (d : MongoRecord) (hd : d ∈ m.data db)
    (hv : d.version = none) (hs : ∀ clock, 2 ^ 31 ≤ clock → limit < ({ d with version := some clock } : MongoRecord).size)
    (calls : List (ApiCall × Reached)) (hc : ∀ c ∈ calls, c.1 ≠ .rollbackRecords ∧ (∀ r ∈ c.1.stream, r.id ≠ d.id) ∧ ∀ t, c.1.clock? = some t → 2 ^ 31 ≤ t)
    (clock : Int) (hclock : 2 ^ 31 ≤ clock) (stop : Reached) :
    d ∈ (afterSized U db limit m calls).data db ∧
      ((ApiCall.commit clock).runSized U db limit stop (afterSized U db limit m calls)).1 = .error .refused := by
  rw [isLocked, decide_eq_false_iff_not] at hl
  suffices h : d ∈ (afterSized U db limit m calls).data db ∧ db ∉ (afterSized U db limit m calls).locks from
    ⟨h.1, commitSized_refused.2 ⟨h.2, d, h.1, hv, hs clock hclock⟩⟩
  induction calls generalizing m with
  | nil => exact ⟨hd, hl⟩
  | cons c calls ih =>
    obtain ⟨c1, c2, c3⟩ := hc c List.mem_cons_self
    obtain ⟨h1, h2⟩ := runSized_keeps (U := U) (db := db) (limit := limit) (stop := c.2) (m := m) (c := c.1) hl hd hv (fun t ht => hs t (c3 t ht)) c1 c2
    rw [afterSized, List.foldl_cons]
    exact ih _ h2 h1 (fun x hx => hc x (List.mem_cons_of_mem _ hx))

/-! ### Records that are changed too often -/

/-- A record with one of two values. -/
def exSwap (b : Bool) : Record := ⟨['r'], [(.str ['x'], .bool b)]⟩

/-- Its data. -/
def swapData (b : Bool) : Dict := [(['x'], .bool b), (dataIdField, .str ['r'])]

/-- It is changed again and again: `n` commits. -/
def swapCalls : Nat → List ApiCall
  | 0 => []
  | n + 1 => swapCalls n ++ [.ingest none [exSwap (n % 2 == 0)] true (n : Int)]

theorem swap_prepared : ∀ b, prepareRecordData asciiU (exSwap b) = swapData b := by decide

theorem swap_changes : ∀ b, computeChanges none (swapData b) (swapData !b) = .ok (swapData b, [⟨[], { dc := some [(['x'], .bool !b)] }⟩]) := by decide

theorem commit_one {db : PyStr} {clock : Int} {m : Mongo} (hl : m.locks = []) {d : MongoRecord} (hd : m.data db = [d]) (hv : d.version = none) :
    (commit db clock m).2.data db = [{ d with version := some clock }] ∧ (commit db clock m).2.locks = [] := by
  rw [commit_eq (by rw [hl]; exact List.not_mem_nil), if_pos (by rw [hd]; simp [hasUncommittedData, hv])]
  refine ⟨?_, hl⟩
  show (m.setData db _).data db = _
  rw [setData_data, hd]
  simp only [commitColl, List.map_cons, List.map_nil, hv, Option.isNone_none, if_true]

theorem run_one {db : PyStr} {m : Mongo} {r : Record} {o : MongoOp} {clock : Int} (h : opFor asciiU none (lookupExisting (m.data db) r.id) r = .ok (some o)) :
    (ApiCall.ingest none [r] true clock).run asciiU db m = commit db clock (m.setData db (applyOp (m.data db) o)) := by
  obtain ⟨st, h1, h2⟩ := ingestSized_single h
  have h3 := ingestSized_coll h1
  rw [h2] at h3
  have e : st.coll = applyOp (m.data db) o := h3
  simp only [ApiCall.run, Splitgill.ingest, h1, bind, Except.bind, if_true, e]

theorem swap_state (db : PyStr) : ∀ n : Nat, ∃ d : MongoRecord, (afterCalls asciiU db (swapCalls (n + 1))).data db = [d] ∧
    (afterCalls asciiU db (swapCalls (n + 1))).locks = [] ∧ d.id = ['r'] ∧ d.version = some (n : Int) ∧ d.data = swapData (n % 2 == 0) ∧
    d.diffs.length = n ∧ ∀ v ∈ akeys d.diffs, v < n
  | 0 => by
    have e : afterCalls asciiU db (swapCalls 1) = ((ApiCall.ingest none [exSwap true] true 0).run asciiU db Mongo.empty).2 := rfl
    have h1 : opFor asciiU none (lookupExisting (Mongo.empty.data db) ['r']) (exSwap true) = .ok (some (.insert ['r'] (swapData true))) := by
      rw [← swap_prepared true]; rfl
    have h2 := run_one (db := db) (m := Mongo.empty) (clock := 0) h1
    rw [e, h2]
    obtain ⟨h3, h4⟩ := commit_one (db := db) (clock := 0) (m := Mongo.empty.setData db (applyOp (Mongo.empty.data db) (.insert ['r'] (swapData true))))
      (d := { id := ['r'], version := none, data := swapData true }) rfl (by rw [setData_data]; rfl) rfl
    exact ⟨_, h3, h4, rfl, rfl, rfl, rfl, fun v hv => nomatch hv⟩
  | n + 1 => by
    obtain ⟨d, h1, h2, h3, h4, h5, h6, h7⟩ := swap_state db n
    have e : afterCalls asciiU db (swapCalls (n + 1 + 1)) =
        ((ApiCall.ingest none [exSwap ((n + 1) % 2 == 0)] true ((n + 1 : Nat) : Int)).run asciiU db (afterCalls asciiU db (swapCalls (n + 1)))).2 :=
      afterCalls_append ..
    generalize hb : ((n + 1) % 2 == 0) = b at e
    have hb' : (n % 2 == 0) = !b := by
      rw [← hb]
      rcases Nat.mod_two_eq_zero_or_one n with h | h
      · have : (n + 1) % 2 = 1 := by omega
        rw [h, this]; rfl
      · have : (n + 1) % 2 = 0 := by omega
        rw [h, this]; rfl
    rw [hb'] at h5
    let changes : List DiffOp := [⟨[], { dc := some [(['x'], .bool !b)] }⟩]
    have ho : opFor asciiU none (lookupExisting ((afterCalls asciiU db (swapCalls (n + 1))).data db) ['r']) (exSwap b) =
        .ok (some (.setDiff ['r'] (swapData b) n changes)) := by
      have hl : lookupExisting [d] ['r'] = some d := by simp only [lookupExisting, List.foldl_cons, List.foldl_nil, h3, if_true]
      rw [h1, hl]
      simp only [opFor, opForExisting, h4, Option.isNone_some, Bool.false_and, Bool.false_eq_true, if_false, swap_prepared, revertIfPending, revertRecord,
        Option.isSome_some, Bool.or_true, if_true, opForCommitted, h4, h5, swap_changes, List.isEmpty_cons]
      rfl
    have hr := run_one (db := db) (m := afterCalls asciiU db (swapCalls (n + 1))) (r := exSwap b) (clock := ((n + 1 : Nat) : Int)) ho
    have ha : applyOp [d] (.setDiff ['r'] (swapData b) n changes) = [{ d with data := swapData b, version := none, diffs := aset (n : Int) changes d.diffs }] := by
      simp only [applyOp, updateFirst, h3, if_true]
    rw [e, hr, h1, ha]
    obtain ⟨g1, g2⟩ := commit_one (db := db) (clock := ((n + 1 : Nat) : Int))
      (m := (afterCalls asciiU db (swapCalls (n + 1))).setData db [{ d with data := swapData b, version := none, diffs := aset (n : Int) changes d.diffs }])
      (d := { d with data := swapData b, version := none, diffs := aset (n : Int) changes d.diffs }) h2 (by rw [setData_data]) rfl
    have hnew : (n : Int) ∉ akeys d.diffs := fun hm => by have := h7 _ hm; omega
    refine ⟨_, g1, g2, h3, rfl, rfl, ?_, ?_⟩
    · show (aset (n : Int) changes d.diffs).length = n + 1
      rw [aset_of_not_mem _ _ hnew, List.length_append, h6]
      rfl
    · intro v hv
      replace hv : v ∈ akeys (aset (n : Int) changes d.diffs) := hv
      rw [aset_of_not_mem _ _ hnew, akeys, List.map_append, List.mem_append] at hv
      rcases hv with hv | hv
      · have := h7 v hv
        omega
      · have : v = n := by simpa using hv
        omega

theorem swap_orderly : ∀ n : Nat, Orderly (swapCalls n) ∧ ∀ t ∈ (swapCalls n).filterMap ApiCall.clock?, t < n
  | 0 => ⟨⟨List.Pairwise.nil, fun _ h => nomatch h⟩, fun _ h => nomatch h⟩
  | n + 1 => by
    obtain ⟨⟨h1, h2⟩, h3⟩ := swap_orderly n
    have e : (swapCalls (n + 1)).filterMap ApiCall.clock? = (swapCalls n).filterMap ApiCall.clock? ++ [(n : Int)] := by
      rw [swapCalls, List.filterMap_append]; rfl
    refine ⟨⟨?_, ?_⟩, ?_⟩
    · rw [e, List.pairwise_append]
      exact ⟨h1, List.pairwise_singleton _ _, fun a ha b hb => by rw [List.mem_singleton] at hb; subst hb; exact h3 a ha⟩
    · intro c hc
      rw [swapCalls] at hc
      rcases List.mem_append.1 hc with hc | hc
      · exact h2 c hc
      · rw [List.mem_singleton] at hc
        subst hc
        exact List.pairwise_singleton _ _
    · intro t ht
      rw [e] at ht
      rcases List.mem_append.1 ht with ht | ht
      · have := h3 t ht
        omega
      · rw [List.mem_singleton] at ht
        omega

theorem swap_stream : ∀ n : Nat, ∀ x ∈ swapCalls n, ∀ r ∈ x.stream, ∃ b, r = exSwap b
  | 0, _, h => nomatch h
  | n + 1, x, h => by
    rw [swapCalls] at h
    rcases List.mem_append.1 h with h | h
    · exact swap_stream n x h
    · rw [List.mem_singleton] at h
      subst h
      intro r hr
      exact ⟨_, List.mem_singleton.1 hr⟩

theorem swap_size (b : Bool) (v : Int) : (⟨['r'], some v, prepareRecordData asciiU (exSwap b), []⟩ : MongoRecord).size ≤ 80 := by
  have h1 : bsonSizeDict (swapData b) = 15 := by revert b; decide
  have h2 : bsonSize (.int v) ≤ 8 := by rw [bsonSize]; split <;> decide
  have h3 : utf8Bytes ['r'] = 1 := by decide
  rw [swap_prepared, size_eq]
  simp only [h1, h3, List.isEmpty_nil, if_true]
  omega

/-- **C119 does not hold in full**, for any limit: a record of at most 80 bytes that is changed again and again comes to a change that is
refused. -/
theorem C119_refuted (limit : Nat) (hl : 80 ≤ limit) : ¬ C119_full limit := by
  intro h
  let stop : Reached := ⟨0, fun _ => false⟩
  have acc : ∀ pre c, pre ++ [c] <+: (swapCalls (limit + 1)).map (fun c => (c, stop)) →
      (c.1.runSized asciiU ['x'] limit c.2 (afterSized asciiU ['x'] limit Mongo.empty pre)).1 ≠ .error .refused := by
    intro pre c hp
    have hp' : pre.map Prod.fst ++ [c.1] <+: swapCalls (limit + 1) := by
      have := hp.map Prod.fst
      rw [List.map_append, List.map_map] at this
      simpa [Function.comp_def] using this
    obtain ⟨t, ht⟩ := hp'
    have ho := (swap_orderly (limit + 1)).1
    rw [← ht] at ho
    refine h asciiU ['x'] pre c.1 c.2 ho.left (fun x hx r hr v => ?_)
    obtain ⟨b, rfl⟩ := swap_stream (limit + 1) x (by rw [← ht]; exact List.mem_append_left _ hx) r hr
    exact Nat.le_trans (swap_size b v) hl
  obtain ⟨_, h2⟩ := C119_only asciiU ['x'] limit _ acc
  rw [List.map_map] at h2
  have e : (swapCalls (limit + 1)).map (Prod.fst ∘ fun c => (c, stop)) = swapCalls (limit + 1) := by
    rw [show (Prod.fst ∘ fun c : ApiCall => (c, stop)) = id from rfl, List.map_id]
  rw [e] at h2
  obtain ⟨d, h3, _, _, _, _, h4, _⟩ := swap_state ['x'] limit
  have h5 := h2 d (by rw [h3]; exact List.mem_singleton.2 rfl)
  have h6 := size_diffs d
  omega

/-! ### Examples -/

/-- A record whose document has 91 bytes, and 99 with a version. -/
def exLong : Record := ⟨['t'], [(.str ['x'], .str (List.replicate 20 'a'))]⟩

/-- A record is committed; then another small one with one that is too large with a version, and `update_many` comes to the small one first;
then other things are done, and at the end the records are rolled back. -/
def exSized : List (ApiCall × Reached) :=
  [(.ingest none [exSwap true] true (2 ^ 31), ⟨0, fun _ => false⟩),
   (.ingest none [⟨['s'], [(.str ['x'], .int 1)]⟩, exLong] true (2 ^ 31 + 5), ⟨0, fun d => d.id == ['s']⟩),
   (.ingest none [⟨['u'], [(.str ['x'], .int 1)]⟩] true (2 ^ 31 + 7), ⟨0, fun _ => false⟩),
   (.rollbackRecords, ⟨0, fun _ => false⟩)]

set_option maxRecDepth 100000 in
/-- With a limit of 95 bytes the second and third call are refused. The small record of the second call then has its version, the large one
does not, and the third call, that has nothing to do with it, cannot commit. No lock is left. -/
example : (List.range 4).map (fun n => (exSized[n]?).map (fun c => callRefused (c.1.runSized asciiU ['x'] 95 c.2 (afterSized asciiU ['x'] 95 Mongo.empty (exSized.take n))))) =
      [some false, some true, some true, some false] ∧
    ((afterSized asciiU ['x'] 95 Mongo.empty (exSized.take 3)).data ['x']).map (fun d => (d.id, d.version)) =
      [(['r'], some (2 ^ 31)), (['s'], some (2 ^ 31 + 5)), (['t'], none), (['u'], none)] ∧
    isLocked ['x'] (afterSized asciiU ['x'] 95 Mongo.empty (exSized.take 3)) = false ∧
    ((afterSized asciiU ['x'] 95 Mongo.empty exSized).data ['x']).map (fun d => (d.id, d.version)) =
      [(['r'], some (2 ^ 31)), (['s'], some (2 ^ 31 + 5))] := by
  decide +kernel

set_option maxRecDepth 100000 in
/-- The hypotheses of `C119_blocked` hold of that record. -/
example : let m := afterSized asciiU ['x'] 95 Mongo.empty (exSized.take 2)
    isLocked ['x'] m = false ∧ ∃ d ∈ m.data ['x'], d.version = none ∧
      (∀ clock, 2 ^ 31 ≤ clock → 95 < ({ d with version := some clock } : MongoRecord).size) ∧
      ∀ c ∈ (exSized.drop 2).take 1, c.1 ≠ .rollbackRecords ∧ (∀ r ∈ c.1.stream, r.id ≠ d.id) ∧ ∀ t, c.1.clock? = some t → 2 ^ 31 ≤ t := by
  intro m
  refine ⟨by decide +kernel, ⟨['t'], none, [(['x'], .str (List.replicate 20 'a')), (dataIdField, .str ['t'])], []⟩, ?_, rfl, ?_, ?_⟩
  · have e : m.data ['x'] = [⟨['r'], some (2 ^ 31), swapData true, []⟩, ⟨['s'], some (2 ^ 31 + 5), [(['x'], .int 1), (dataIdField, .str ['s'])], []⟩,
        ⟨['t'], none, [(['x'], .str (List.replicate 20 'a')), (dataIdField, .str ['t'])], []⟩] := by decide +kernel
    rw [e]
    simp
  · intro clock h
    rw [size_clock h (Int.le_refl (2 ^ 31))]
    decide +kernel
  · intro c hc
    rw [show (exSized.drop 2).take 1 = [(.ingest none [⟨['u'], [(.str ['x'], .int 1)]⟩] true (2 ^ 31 + 7), ⟨0, fun _ => false⟩)] from rfl, List.mem_singleton] at hc
    subst hc
    refine ⟨fun h => (nomatch h), by decide, fun t ht => ?_⟩
    injection ht with ht
    omega

set_option maxRecDepth 100000 in
/-- With a limit of 200 bytes three versions of a record that is changed again and again fit, and the fourth does not. -/
example : (List.range 4).map (fun n => ((swapCalls (n + 1)).getLast?).map (fun c => callRefused (c.runSized asciiU ['x'] 200 ⟨0, fun _ => false⟩
      (afterSized asciiU ['x'] 200 Mongo.empty ((swapCalls n).map (fun c => (c, ⟨0, fun _ => false⟩))))))) =
      [some false, some false, some false, some true] ∧
    ((afterSized asciiU ['x'] 200 Mongo.empty ((swapCalls 4).map (fun c => (c, ⟨0, fun _ => false⟩)))).data ['x']).map (fun d => (d.version, d.size)) =
      [(some 2, 173)] ∧
    (history ((afterSized asciiU ['x'] 200 Mongo.empty ((swapCalls 4).map (fun c => (c, ⟨0, fun _ => false⟩)))).data ['x']) ['r']).toOption.map List.length = some 3 := by
  decide +kernel

/-- The hypotheses of `C119_partial` hold of the first three of them. -/
example : Orderly (swapCalls 2 ++ [.ingest none [exSwap true] true 2]) ∧
    ∀ pre, pre <+: swapCalls 2 ++ [.ingest none [exSwap true] true 2] → ∀ r ∈ (afterCalls asciiU ['x'] pre).data ['x'], r.size ≤ 200 := by
  refine ⟨(swap_orderly 3).1, fun pre h => ?_⟩
  have key : ∀ pre ∈ (swapCalls 3).inits, ∀ r ∈ (afterCalls asciiU ['x'] pre).data ['x'], r.size ≤ 200 := by decide +kernel
  exact key pre ((List.mem_inits _ _).2 h)

end Splitgill.Props
