import Verif.Proof.Reads3
import Verif.Props.Crash
import Verif.Props.WriterHist
/-!
# C125: searches never show anything that was not committed

`CanHold` (`Verif.Spec.Reads`) are all indices that can come about when any number of syncs, resyncs and `resync_arcs` read a database while it
changes, and their operations are carried out in part, in any order or repeatedly, and documents are deleted. The database goes through any steps: calls,
and calls that are stopped at any point.
-/

namespace Splitgill.Props
open Splitgill

/-- **C125** However syncs run, are stopped, repeated or mixed: a document that `search(w)` finds belongs to a version not above `w`, and is the parse of
the data that the record had as of that version and was committed with, not deleted, with the options as of that version as they were known at
some time. What was read at the time is, up to the order of keys, still what the record shows as of that version at the end. -/
theorem C125_shown {P : Type} (X : Parser P) (maxDocs : Nat) (U : Unicode) (db : PyStr) (steps : List Step) (h : OrderlySteps steps) (es : ES P)
    (hes : CanHold X maxDocs db (fun t => afterSteps U db (steps.take t)) es) (w : Int) (d : Doc P) (hd : d ∈ found es (.version w)) :
    d.version ≤ w ∧ ∃ t t' a b o, t ≤ t' ∧
      AsOf (histOf ((afterSteps U db (steps.take t')).data db) d.id) d.version a ∧ a ≠ [] ∧
      AsOf (histOf ((afterSteps U db steps).data db) d.id) d.version b ∧ simEq (.dict b) (.dict a) = true ∧
      OptionsAsOf (effectiveOptions (histOf ((afterSteps U db steps).data db) d.id) (committedOptionsOf db (afterSteps U db (steps.take t)))) d.version o ∧
      d.parsed = X.parse a o := by
  obtain ⟨⟨e1, _⟩, t, t', a, o, hs⟩ := hes.committed (fun t => steps_dataOk (h.take t)) d (mem_found_all hd)
  obtain ⟨b, h1, h2, h3⟩ := shows_steps (K := fun _ => plainClass) (fun c _ => fits_plain U c.stream) h hs
  exact ⟨found_le hd e1, t, t', a, b, o, hs.order, hs.data, hs.alive, h1, h2.sim, h3, hs.parsed⟩

/-- **C125** (searches of the latest data, and of all versions) The same, but for the bound on the version. -/
theorem C125_any {P : Type} (X : Parser P) (maxDocs : Nat) (U : Unicode) (db : PyStr) (steps : List Step) (h : OrderlySteps steps) (es : ES P)
    (hes : CanHold X maxDocs db (fun t => afterSteps U db (steps.take t)) es) (at_ : SearchAt) (d : Doc P) (hd : d ∈ found es at_) :
    ∃ t t' a b o, t ≤ t' ∧
      AsOf (histOf ((afterSteps U db (steps.take t')).data db) d.id) d.version a ∧ a ≠ [] ∧
      AsOf (histOf ((afterSteps U db steps).data db) d.id) d.version b ∧ simEq (.dict b) (.dict a) = true ∧
      OptionsAsOf (effectiveOptions (histOf ((afterSteps U db steps).data db) d.id) (committedOptionsOf db (afterSteps U db (steps.take t)))) d.version o ∧
      d.parsed = X.parse a o := by
  obtain ⟨_, t, t', a, o, hs⟩ := hes.committed (fun t => steps_dataOk (h.take t)) d (mem_found_all hd)
  obtain ⟨b, h1, h2, h3⟩ := shows_steps (K := fun _ => plainClass) (fun c _ => fits_plain U c.stream) h hs
  exact ⟨t, t', a, b, o, hs.order, hs.data, hs.alive, h1, h2.sim, h3, hs.parsed⟩

/-- **C125** (with the parser of the library) If no two data given for a record hold equal but different scalars at the same place, the document is
exactly the parse of what the record shows as of its version at the end. -/
theorem C125_exact (E : ParseEnv) (hE : E.IgnoresOrder) (maxDocs : Nat) (U : Unicode) (hU : U.Sane) (db : PyStr) (steps : List Step)
    (h : OrderlySteps steps) (hn : NoPunsAmong U (steps.flatMap Step.stream)) (es : ES (Option ParsedData))
    (hes : CanHold (realParser E) maxDocs db (fun t => afterSteps U db (steps.take t)) es) (w : Int) (d : Doc (Option ParsedData))
    (hd : d ∈ found es (.version w)) :
    d.version ≤ w ∧ ∃ t b o, AsOf (histOf ((afterSteps U db steps).data db) d.id) d.version b ∧ b ≠ [] ∧
      OptionsAsOf (effectiveOptions (histOf ((afterSteps U db steps).data db) d.id) (committedOptionsOf db (afterSteps U db (steps.take t)))) d.version o ∧
      d.parsed = (realParser E).parse b o := by
  obtain ⟨⟨e1, _⟩, t, t', a, o, hs⟩ := hes.committed (fun t => steps_dataOk (h.take t)) d (mem_found_all hd)
  have hR := (realParser_respects (E := E) hE (placesOf U _ hn)).named
  have hq : ∀ c ∈ steps, Fits (fun id => (strictClass (placesOf U _ hn id)).named) U c.stream := fun c hc =>
    fits_named_strict hU hn (fun r hr => List.mem_flatMap.2 ⟨c, hc, hr⟩)
  obtain ⟨b, h1, h2, h3⟩ := shows_steps hq h hs
  exact ⟨found_le hd e1, t, b, o, h1, fun e => hs.alive (h2.nil_iff.1 e), h3, by rw [hs.parsed]; exact (hR _ _ _ o h2).symm⟩

/-- **C125** (calls that return) Without stopped calls: the data is that of the ingest that the version is from. -/
theorem C125_ingested {P : Type} (X : Parser P) (maxDocs : Nat) (U : Unicode) (db : PyStr) (calls : List ApiCall) (h : Orderly calls) (es : ES P)
    (hes : CanHold X maxDocs db (fun t => afterCalls U db (calls.take t)) es) (w : Int) (d : Doc P) (hd : d ∈ found es (.version w)) :
    d.version ≤ w ∧ ∃ t a b o, AsOf (ingested U db calls d.id).committed d.version b ∧ b ≠ [] ∧ simEq (.dict b) (.dict a) = true ∧
      OptionsAsOf (effectiveOptions (ingested U db calls d.id).committed (committedOptionsOf db (afterCalls U db (calls.take t)))) d.version o ∧
      d.parsed = X.parse a o := by
  have hst : ∀ t, afterSteps U db ((calls.map Step.call).take t) = afterCalls U db (calls.take t) := fun t => by
    rw [← List.map_take, afterSteps_calls]
  have hes' : CanHold X maxDocs db (fun t => afterSteps U db ((calls.map Step.call).take t)) es := by
    have : (fun t => afterSteps U db ((calls.map Step.call).take t)) = fun t => afterCalls U db (calls.take t) := funext hst
    rw [this]; exact hes
  obtain ⟨⟨e1, _⟩, t, t', a, o, hs⟩ := hes'.committed (fun t => steps_dataOk ((orderly_calls h).take t)) d (mem_found_all hd)
  obtain ⟨b, h4, h5, h6⟩ := shows_steps (K := fun _ => plainClass) (fun c _ => fits_plain U c.stream) (orderly_calls h) hs
  rw [afterSteps_calls] at h4 h6
  have hl := (life (K := fun _ => plainClass) (U := U) (db := db) (fun c _ => fits_plain U c.stream) h).hist d.id
  obtain ⟨b', hb1, hb2⟩ := hl.symm.asOf h4
  refine ⟨found_le hd e1, t, a, b', o, hb1, fun e => hs.alive ((hb2.trans h5).nil_iff.1 e), (hb2.trans h5).sim, ?_, hs.parsed⟩
  rw [hst, effectiveOptions_versions _ hl.fst] at h6
  exact h6

/-- **C125** (several processes) The same while several processes ingest and commit command by command, at every moment of which a sync may read. -/
theorem C125_writers {P : Type} (X : Parser P) (maxDocs : Nat) (U : Unicode) (db : PyStr) (before : List ApiCall)
    (calls : Nat → Option PyStr × List Record × Bool) (acts : List WriterAct) (h : WritersOk U db before calls acts) (es : ES P)
    (hes : CanHold X maxDocs db (fun t => (afterWriters U db before calls (acts.take t)).mongo) es) (w : Int) (d : Doc P)
    (hd : d ∈ found es (.version w)) :
    d.version ≤ w ∧ ∃ t t' a o, t ≤ t' ∧
      AsOf (histOf ((afterWriters U db before calls (acts.take t')).mongo.data db) d.id) d.version a ∧ a ≠ [] ∧
      OptionsAsOf (effectiveOptions (histOf ((afterWriters U db before calls (acts.take t')).mongo.data db) d.id)
        (committedOptionsOf db (afterWriters U db before calls (acts.take t)).mongo)) d.version o ∧
      d.parsed = X.parse a o := by
  have hm : ∀ t, DataOk db (afterWriters U db before calls (acts.take t)).mongo := fun t => by
    have h' := h
    rw [← List.take_append_drop t acts] at h'
    obtain ⟨s, h1, h2⟩ := h'.split.rcoll
    exact RColl.dataOk h1 h2
  obtain ⟨⟨e1, _⟩, t, t', a, o, hs⟩ := hes.committed hm d (mem_found_all hd)
  exact ⟨found_le hd e1, t, t', a, o, hs.order, hs.data, hs.alive, hs.options, hs.parsed⟩

/-- **C125** (what can come about) The results of `sync()`, `sync(resync=True)` and `resync_arcs()` of a database that changes meanwhile are among the
indices that `C125_shown` is about. -/
theorem C125_syncs {P : Type} (X : Parser P) (maxDocs : Nat) (db : PyStr) (states : Nat → Mongo) (t : Nat)
    (cursor : (MongoRecord → Bool) → List MongoRecord) (hc : ∀ sel, ∀ r ∈ cursor sel, sel r = true ∧ ∃ t', t ≤ t' ∧ r ∈ (states t').data db)
    (es es' : ES P) (hes : CanHold X maxDocs db states es)
    (h : syncOver X maxDocs db (states t) cursor es = .ok es' ∨ resyncOver X maxDocs db (states t) cursor es = .ok es' ∨
      resyncArcsOver X maxDocs db (states t) cursor es = .ok es') : CanHold X maxDocs db states es' := by
  have hcur : ∀ sel, (∀ r, sel r = true → r.version.isSome) → ∀ r ∈ cursor sel, ∃ t', t ≤ t' ∧ r ∈ (states t').data db ∧ r.version.isSome := by
    intro sel hs r hr
    obtain ⟨h1, t', h2, h3⟩ := hc sel r hr
    exact ⟨t', h2, h3, hs r h1⟩
  rcases h with h | h | h
  · unfold syncOver at h
    split at h
    · cases h; exact hes
    · split at h
      · cases h
      · cases h; exact hes
      · rename_i sel last hsc
        split at h
        · cases h
        · rename_i ops arc hg
          cases h
          exact hes.ops (hcur sel (fun r hr => syncScope_committed hsc hr)) hg ops (fun _ h => h)
  · unfold resyncOver at h
    split at h
    · cases h; exact hes
    · split at h
      · cases h
      · cases h; exact hes
      · rename_i sel last hsc
        dsimp only at h
        split at h
        · cases h
        · rename_i ops arc hg
          cases h
          exact hes.deleteArcs.ops (hcur sel (fun r hr => syncScope_committed hsc hr)) hg ops (fun _ h => h)
  · unfold resyncArcsOver at h
    dsimp only at h
    split at h
    · cases h
    · rename_i ops arc hg
      cases h
      exact hes.deleteArcs.ops (hcur _ (fun r hr => hr)) hg _ (fun op h => (List.mem_filter.1 h).1)

/-- **C125** (what can come about) So is what is left when a sync stops after some of its operations, some of which may have been carried out more than
once. -/
theorem C125_stopped {P : Type} (X : Parser P) (maxDocs : Nat) (db : PyStr) (states : Nat → Mongo) (t : Nat) (resync : Bool) (es es' : ES P)
    (ops done : List (BulkOp P)) (hes : CanHold X maxDocs db states es) (h : syncOps X maxDocs db resync (states t) es = .ok (es', ops))
    (hd : ∀ op ∈ done, op ∈ ops) : CanHold X maxDocs db states (es'.applyOps done) := by
  unfold syncOps at h
  split at h
  · cases h
    cases done with
    | nil => exact hes
    | cons op _ => cases hd op List.mem_cons_self
  · split at h
    · cases h
    · cases h
      cases done with
      | nil => exact hes
      | cons op _ => cases hd op List.mem_cons_self
    · rename_i sel last hsc
      dsimp only at h
      split at h
      · cases h
      · rename_i ops' arc hg
        cases h
        refine CanHold.ops ?_ (fun r hr => ?_) hg done hd
        · split
          · exact hes.deleteArcs
          · exact hes
        · obtain ⟨h1, h2⟩ := List.mem_filter.1 hr
          exact ⟨t, Nat.le_refl _, h1, syncScope_committed hsc h2⟩

/-! ## Examples -/

/-- Two ingests of the same record. -/
def exShownCalls : List ApiCall := [.ingest none [exRec ['a'] 1, exRec ['b'] 1] true 1, .ingest none [exRec ['a'] 2] true 2]

/-- The states that the database of `exStops` goes through. -/
def exStopStates (t : Nat) : Mongo := afterSteps asciiU ['x'] (exStops.take t)

set_option maxRecDepth 100000 in
/-- A sync that reads the options after the commit that died and the records at the end; after it the first half of a sync, twice. Both are
among the indices of `C125_shown`; the searches find documents. -/
example : OrderlySteps exStops ∧
    (∃ es, CanHold exParser 10 ['x'] exStopStates es ∧ (found es (.version 2)).length = 2 ∧ (found es (.version 4)).length = 3) ∧
    ∃ es, CanHold exParser 10 ['x'] exStopStates es ∧ (found es (.version 2)).map (·.id) = [['a']] := by
  refine ⟨exStops_orderly, ?_, ?_⟩
  · obtain ⟨es, h1, h2⟩ := exists_ok (x := syncOver exParser 10 ['x'] (exStopStates 3) (fun sel => ((exStopStates 7).data ['x']).filter sel) [])
      (p := fun es => decide ((found es (.version 2)).length = 2 ∧ (found es (.version 4)).length = 3)) (by decide +kernel)
    refine ⟨es, C125_syncs exParser 10 ['x'] exStopStates 3 (fun sel => ((exStopStates 7).data ['x']).filter sel) ?_ [] es .empty (.inl h1), of_decide_eq_true h2⟩
    intro sel r hr
    obtain ⟨h1, h2⟩ := List.mem_filter.1 hr
    exact ⟨h2, 7, by omega, h1⟩
  · obtain ⟨⟨es, ops⟩, h1, h2⟩ := exists_ok (x := syncOps exParser 10 ['x'] false (exStopStates 7) [])
      (p := fun r => decide ((found (r.1.applyOps (r.2.take 2 ++ r.2.take 2)) (.version 2)).map (·.id) = [['a']])) (by decide +kernel)
    refine ⟨_, C125_stopped exParser 10 ['x'] exStopStates 7 false [] es ops (ops.take 2 ++ ops.take 2) .empty h1 ?_, of_decide_eq_true h2⟩
    intro op h
    rcases List.mem_append.1 h with h | h <;> exact List.mem_of_mem_take h

set_option maxRecDepth 100000 in
/-- The same for `C125_ingested`: two ingests, and a sync that has the options of the first and the records of the second. -/
example : Orderly exShownCalls ∧ ∃ es, CanHold exParser 10 ['x'] (fun t => afterCalls asciiU ['x'] (exShownCalls.take t)) es ∧
    (found es (.version 2)).map (fun d => (d.id, d.version)) = [(['a'], 2), (['b'], 1)] := by
  refine ⟨⟨by decide, fun c hc => ?_⟩, ?_⟩
  · simp only [exShownCalls, List.mem_cons, List.not_mem_nil, or_false] at hc
    rcases hc with rfl | rfl <;> (unfold NoSpan; decide)
  · obtain ⟨es, h1, h2⟩ := exists_ok (x := syncOver exParser 10 ['x'] (afterCalls asciiU ['x'] (exShownCalls.take 1))
        (fun sel => ((afterCalls asciiU ['x'] (exShownCalls.take 2)).data ['x']).filter sel) [])
      (p := fun es => decide ((found es (.version 2)).map (fun d => (d.id, d.version)) = [(['a'], 2), (['b'], 1)])) (by decide +kernel)
    refine ⟨es, C125_syncs exParser 10 ['x'] (fun t => afterCalls asciiU ['x'] (exShownCalls.take t)) 1
      (fun sel => ((afterCalls asciiU ['x'] (exShownCalls.take 2)).data ['x']).filter sel) ?_ [] es .empty (.inl h1), of_decide_eq_true h2⟩
    intro sel r hr
    obtain ⟨h1, h2⟩ := List.mem_filter.1 hr
    exact ⟨h2, 2, by omega, h1⟩

set_option maxRecDepth 100000 in
/-- For `C125_writers`: the processes of C122, and a sync at the end. -/
example : WritersOk asciiU [] exBefore exWriters exBetween ∧
    ∃ es, CanHold exParser 10 [] (fun t => (afterWriters asciiU [] exBefore exWriters (exBetween.take t)).mongo) es ∧ (found es (.version 5)) ≠ [] := by
  refine ⟨exBetween_ok, ?_⟩
  obtain ⟨⟨es, ops⟩, h1, h2⟩ := exists_ok (x := syncOps exParser 10 [] false (afterWriters asciiU [] exBefore exWriters (exBetween.take exBetween.length)).mongo [])
    (p := fun r => decide (found (r.1.applyOps r.2) (.version 5) ≠ [])) (by decide +kernel)
  exact ⟨_, C125_stopped exParser 10 [] (fun t => (afterWriters asciiU [] exBefore exWriters (exBetween.take t)).mongo) _ false [] es ops ops .empty h1
    (fun _ h => h), of_decide_eq_true h2⟩

end Splitgill.Props
