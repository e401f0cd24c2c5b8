import Verif.Proof.RaisesWrite
import Verif.Proof.Resync
import Verif.Props.Raises
import Verif.Props.Visible
/-!
# C97: a sync that raises shows nothing and is not taken for complete
-/

namespace Splitgill.Props
open Splitgill

/-- C97 in full: when `sync` raises because `parse` raises for some data, searches see what they saw before, and the next `sync()` does not
return (with data missing) before that is mended. -/
def C97_full : Prop := ∀ (E : ParseEnv) (F : Failures) (maxDocs : Nat) (db : PyStr) (resync : Bool) (m : Mongo) (c c1 : Indices (Option ParsedData))
  (ops : List (BulkOp (Option ParsedData))) (e : PyErr) (o : BulkOptions) (schedule : List VisAction) (s : VisState (Option ParsedData)),
  DbOk db m → c.Settled → LatestOk c.stored → 1 ≤ o.chunkSize → tryStart E F maxDocs db resync m c = .ok (some (c1, ops, some e)) →
  writeRaising c1 ops o schedule = some s →
    SameDocs s.cluster.visible c.visible ∧ ∃ e, trySync E F maxDocs db false m s.cluster.view = .error e

/-- **C97**, what is written: the operations of such a sync are the first ones of those it would have had if `parse` had returned (here: with a
value for what cannot be parsed), so what has been written is part of that. -/
theorem C97_stream (E : ParseEnv) (F : Failures) (maxDocs : Nat) (opts : List (Int × ParsingOptions)) (after : Option Int) (arc : Nat × Nat)
    (records : List MongoRecord) :
    (∃ before rest, records = before ++ rest ∧ (∀ r ∈ before, ∃ rvs, tryBuild E F r opts = .ok rvs ∧ rvs ≠ []) ∧
      (∃ arc', tryGenerateOps E F maxDocs opts after arc before = .ok ((tryStream E F maxDocs opts after arc records).1, arc')) ∧
      ((tryStream E F maxDocs opts after arc records).2 = none ↔ rest = []) ∧
      (∀ r more, rest = r :: more → ∀ rvs, tryBuild E F r opts = .ok rvs → rvs = [])) ∧
    (∀ all, generateOps (realParser E) maxDocs opts after arc records = .ok all → ∃ more,
      all.1 = (tryStream E F maxDocs opts after arc records).1 ++ more) := by
  cases h : tryStream E F maxDocs opts after arc records with
  | mk ops e =>
    obtain ⟨before, rest, arc', h1, h2, h3⟩ := tryStream_split h
    refine ⟨⟨before, rest, h1, tryGenerateOps_ok.1 ⟨_, h2⟩, ⟨arc', h2⟩, ?_, ?_⟩, fun all hall => ?_⟩
    · rcases h3 with ⟨h3, h4⟩ | ⟨h3, r, more, h4, _⟩
      · exact ⟨fun _ => h4, fun _ => h3⟩
      · exact ⟨fun k => absurd k h3, fun k => by rw [h4] at k; cases k⟩
    · rintro r more hr
      rcases h3 with ⟨_, h4⟩ | ⟨_, r', more', h4, h5⟩
      · rw [h4] at hr; cases hr
      · rw [h4] at hr; cases hr; exact h5
    · subst h1
      exact generateOps_append (tryGenerateOps_same h2) hall

/-- **C97**: after any number of syncs that raised, searches and all methods that read give what they gave before. The latest index is sound
(one document per id). -/
theorem C97_hidden_partial (E : ParseEnv) (F : Failures) (maxDocs : Nat) (db : PyStr) (c c' : Indices (Option ParsedData)) (hc : c.Held)
    (hok : LatestOk c.stored) (h : RaisedSyncs E F maxDocs db c c') :
    SameDocs c'.visible c.visible ∧ ReadsSame c'.visible c.visible ∧ c'.Held ∧ LatestOk c'.stored := by
  obtain ⟨h1, h2, h3⟩ := h.inv hc hok
  have hs := sameDocs_of_aget h1
  exact ⟨hs, hs.reads h2.keys hc.keys, h2, h3⟩

/-- **C97**: and syncs go on raising. If `sync()` would raise for a state of the database with the first indices, it raises with the last
ones; and vice versa. -/
theorem C97_again_partial (E : ParseEnv) (F : Failures) (maxDocs : Nat) (db : PyStr) (c c' : Indices (Option ParsedData)) (hc : c.Held)
    (hok : LatestOk c.stored) (h : RaisedSyncs E F maxDocs db c c') (m : Mongo) (hm : DbOk db m) :
    (∃ e, trySync E F maxDocs db false m c'.view = .error e) ↔ ∃ e, trySync E F maxDocs db false m c.view = .error e := by
  have h1 := h.inv hc hok
  have hv := view_version hc h1.2.1 hok.indices h1.2.2.indices h1.1
  have hl : ∀ r, LooksAt db false m c'.view r ↔ LooksAt db false m c.view r := fun r => by unfold LooksAt; rw [hv]
  have key : ∀ es : ES (Option ParsedData), (∃ e, trySync E F maxDocs db false m es = .error e) ↔ ¬ ∃ es', trySync E F maxDocs db false m es = .ok es' := by
    intro es
    cases trySync E F maxDocs db false m es with
    | error e => simp
    | ok x => simp
  rw [key, key, trySync_iff hm, trySync_iff hm]
  simp only [hl]

/-- **C97**, for `resync=True` and `resync_arcs()`: the archives are deleted before anything is written, which searches see at once. After an
exception nothing of them is found; the latest index is seen as before. -/
theorem C97_archives_lost (E : ParseEnv) (F : Failures) (maxDocs : Nat) (db : PyStr) (m : Mongo) (c c1 : Indices (Option ParsedData)) (hc : c.Held)
    (ops : List (BulkOp (Option ParsedData))) (e : PyErr) (o : BulkOptions) (schedule : List VisAction) (hn : NoOthers schedule)
    (s : VisState (Option ParsedData))
    (hstart : tryStart E F maxDocs db true m c = .ok (some (c1, ops, some e)) ∨ tryStartArcs E F maxDocs db m c = (c1, ops, some e))
    (hrun : writeRaising c1 ops o schedule = some s) :
    SameDocs s.cluster.visible c.visible.deleteArcs ∧ s.cluster.visible.docs .latest = c.visible.docs .latest ∧
      ∀ k, s.cluster.visible.docs (.arc k) = [] := by
  have hc1 : c1 = c.deleteArcs := by
    rcases hstart with h | h
    · have := tryStart_start h
      simpa using this
    · exact (congrArg Prod.fst h).symm
  subst hc1
  have hh : c.deleteArcs.Held := by
    refine ⟨(List.filter_sublist.map _).nodup hc.keys, fun ix h => ?_, fun ix h => ?_⟩
    · rw [Indices.deleteArcs, aget_deleteArcs] at h ⊢
      split at h
      · next hx => rw [if_pos hx]; exact hc.exist ix h
      · next hx => rw [if_neg hx]
    · rw [Indices.deleteArcs, aget_deleteArcs, aget_deleteArcs] at h
      split at h
      · next hx => exact List.mem_filter.2 ⟨hc.paused ix h, by simpa using hx⟩
      · exact absurd rfl h
  obtain ⟨k1, k2⟩ := writeRaising_hidden hh hn hrun
  have hs := sameDocs_of_aget k1
  refine ⟨hs, ?_, ?_⟩
  · rw [ES.docs, ES.docs, k1, Indices.deleteArcs, aget_deleteArcs, if_pos rfl]
  · intro k
    rw [ES.docs, k1, Indices.deleteArcs, aget_deleteArcs, if_neg (by simp)]
    rfl

/-- **C97**, for `resync_arcs()`: it writes into archives only, and if nothing raises it is the `resync_arcs()` of C33. Whether it raises does not
depend on what is in the indices, and it raises if and only if `sync(resync=True)` raises. -/
theorem C97_arcs (E : ParseEnv) (F : Failures) (maxDocs : Nat) (db : PyStr) (m : Mongo) (c c1 : Indices (Option ParsedData))
    (ops : List (BulkOp (Option ParsedData))) (e : Option PyErr) (h : tryStartArcs E F maxDocs db m c = (c1, ops, e)) :
    (∀ op ∈ ops, ∃ k, op.ix = .arc k) ∧
    (e = none → resyncArcs (realParser E) maxDocs db m c.view = .ok (c.view.deleteArcs.applyOps ops)) ∧
    ∀ c2 all e2, tryStart E F maxDocs db true m c = .ok (some (c2, all, e2)) →
      c2 = c1 ∧ e2 = e ∧ ops = all.filter (fun op => match op.ix with | .latest => false | .arc _ => true) := by
  have hview : c.deleteArcs.view.arcStatus = (0, 0) := by
    rw [ES.arcStatus]
    have : c.deleteArcs.view.arcs = [] := by
      rw [ES.arcs, List.filterMap_eq_nil_iff]
      intro x hx
      have hk : x.1 ∈ akeys c.deleteArcs.stored := by
        rw [← view_keys]
        exact List.mem_map_of_mem hx
      obtain ⟨y, hy, e⟩ := List.mem_map.1 hk
      have := (List.mem_filter.1 hy).2
      rw [decide_eq_true_iff] at this
      rw [← e, this]
    rw [this]
    rfl
  unfold tryStartArcs at h
  dsimp only at h
  rw [hview] at h
  cases hs : tryStream E F maxDocs (committedOptionsOf db m) none (0, 0) ((m.data db).filter (fun r => r.version.isSome)) with
  | mk all e' =>
    rw [hs] at h
    cases h
    refine ⟨?_, ?_, ?_⟩
    · intro op hop
      have := (List.mem_filter.1 hop).2
      cases hx : op.ix with
      | latest => rw [hx] at this; cases this
      | arc k => exact ⟨k, rfl⟩
    · rintro rfl
      obtain ⟨before, rest, arc', h1, h2, h3⟩ := tryStream_split hs
      rcases h3 with ⟨_, rfl⟩ | ⟨h3, _⟩
      · rw [List.append_nil] at h1
        subst h1
        unfold resyncArcs
        dsimp only
        rw [deleteArcs_arcStatus, tryGenerateOps_same h2]
      · exact absurd rfl h3
    · intro c2 all2 e2 h2
      unfold tryStart at h2
      split at h2
      · cases h2
      · simp only [syncScope, if_true] at h2
        rw [hview, hs] at h2
        cases h2
        refine ⟨rfl, rfl, List.filter_congr (fun op _ => ?_)⟩
        cases op.ix <;> rfl

/-- **C97**, repair: after any number of syncs that raised, a `sync(resync=True)` that returns (something has been done about the exception: other
libraries, `E` and `F`) leaves in the archives what a first sync writes there, and in the latest index all its documents. Missing: documents
of records deleted meanwhile stay, see `C32_refuted`. -/
theorem C97_repair_partial (E E' : ParseEnv) (F F' : Failures) (maxDocs : Nat) (db : PyStr) (c c' : Indices (Option ParsedData)) (hc : c.Held)
    (hok : LatestOk c.stored) (h : RaisedSyncs E F maxDocs db c c') (m : Mongo) (hm : DbOk db m) (hd : hasData db m = true)
    (es' : ES (Option ParsedData)) (hsync : trySync E' F' maxDocs db true m c'.stored = .ok es') :
    ∃ es1, trySync E' F' maxDocs db false m [] = .ok es1 ∧ es'.archived.Perm es1.archived ∧ ∀ x ∈ es1.docs .latest, x ∈ es'.docs .latest := by
  obtain ⟨_, _, hok'⟩ := h.inv hc hok
  obtain ⟨es1, h1, h2⟩ := first_sync hm (realParser E') maxDocs
  obtain ⟨es2, h3, h4, h5, h6⟩ := resync_effect hm (realParser E') maxDocs hd hok' h2
  have e := (trySync_same hsync).symm.trans h3
  cases e
  have hr : ∃ x, trySync E' F' maxDocs db false m [] = .ok x := by
    rw [trySync_iff hm]
    rintro r ⟨hr, w, hw, _⟩
    exact (trySync_iff hm maxDocs true c'.stored).1 ⟨_, hsync⟩ r ⟨hr, w, hw, .inl rfl⟩
  obtain ⟨x, hx⟩ := hr
  have e := (trySync_same hx).symm.trans h1
  cases e
  refine ⟨_, hx, h5, fun x hx => ?_⟩
  rw [latest_mem_iff h2.ok] at hx
  rw [latest_mem_iff h4]
  obtain ⟨id, e, h⟩ := hx
  exact ⟨id, e, by rw [h6 id, h]; rfl⟩

/-! ## Examples -/

/-- A format for floats that raises is committed, then a record without floats, and one with a float. -/
def exGoodBad : List ApiCall :=
  [.updateOptions { defaultOptions with floatFormat := "{1}".toList } true 1,
   .ingest none [exRec ['b'] 1, ⟨['a'], [(.str ['x'], .float .negZero)]⟩] true 2]

/-- No indices. -/
def exNone : Indices (Option ParsedData) := { stored := [], visible := [], paused := [] }

theorem exNone_settled : exNone.Settled := ⟨by decide, fun _ => rfl, rfl⟩

/-- The first chunk is written, then the stream raises. -/
def exRaising : List VisAction :=
  [.setUp .latest, .task .main, .task (.get 0), .task (.response 0 (.items [false])), .task .mainRaises]

/-- What a sync does into these indices with this schedule. -/
def exRaised (resync : Bool) (m : Mongo) (c : Indices (Option ParsedData)) (schedule : List VisAction) : Option (VisState (Option ParsedData)) :=
  match tryStart exEnv' exFormatFails 10 ['x'] resync m c with
  | .ok (some (c1, ops, some _)) => writeRaising c1 ops exBulk1 schedule
  | _ => none

theorem exRaised_elim {resync : Bool} {m : Mongo} {c : Indices (Option ParsedData)} {schedule : List VisAction} {s : VisState (Option ParsedData)}
    (h : exRaised resync m c schedule = some s) : ∃ c1 ops e, tryStart exEnv' exFormatFails 10 ['x'] resync m c = .ok (some (c1, ops, some e)) ∧
      writeRaising c1 ops exBulk1 schedule = some s := by
  unfold exRaised at h
  split at h
  · next c1 ops e ht => exact ⟨c1, ops, e, ht, h⟩
  · cases h

theorem exGoodBad_ok : DbOk ['x'] (afterCalls asciiU ['x'] exGoodBad) := dbOk_of_check (by decide +kernel)

set_option maxRecDepth 100000 in
/-- **C97 does not hold in full**: if somebody else refreshes the indices after the exception (`write_ops` of any database without operations does,
see C86), the record that was written has the newest version, so the next sync returns and has nothing to do: the other record is
missing, and nobody is told. -/
theorem C97_refuted : ¬ C97_full := by
  intro h
  cases hr : exRaised false (afterCalls asciiU ['x'] exGoodBad) exNone (exRaising ++ [.others]) with
  | none =>
    have : (exRaised false (afterCalls asciiU ['x'] exGoodBad) exNone (exRaising ++ [.others])).isSome = true := by decide +kernel
    rw [hr] at this; cases this
  | some s =>
    obtain ⟨c1, ops, e, h1, h2⟩ := exRaised_elim hr
    obtain ⟨_, e', h3⟩ := h exEnv' exFormatFails 10 ['x'] false _ exNone c1 ops e exBulk1 _ s exGoodBad_ok exNone_settled latestOk_nil (by decide) h1 h2
    have : ((exRaised false (afterCalls asciiU ['x'] exGoodBad) exNone (exRaising ++ [.others])).map (fun s =>
      match trySync exEnv' exFormatFails 10 ['x'] false (afterCalls asciiU ['x'] exGoodBad) s.cluster.view with
      | .ok es => (es.all.length)
      | .error _ => 0)) = some 1 := by decide +kernel
    rw [hr] at this
    simp only [Option.map_some, h3] at this
    cases this

/-- A record with two versions. -/
def exBefore97 : List ApiCall := [.ingest none [exRec ['a'] 1] true 1, .ingest none [exRec ['a'] 2] true 2]
/-- Then data that cannot be parsed. -/
def exThenBad97 : List ApiCall :=
  exBefore97 ++ [.updateOptions { defaultOptions with floatFormat := "{1}".toList } true 3,
    .ingest none [⟨['a'], [(.str ['x'], .float .negZero)]⟩] true 4]

/-- The indices after a sync of the two versions. -/
def exTwoVersions : Indices (Option ParsedData) :=
  match trySync exEnv' exFormatFails 10 ['x'] false (afterCalls asciiU ['x'] exBefore97) [] with
  | .ok es => { stored := es, visible := es, paused := [] }
  | .error _ => exNone

set_option maxRecDepth 100000 in
theorem exTwoVersions_settled : exTwoVersions.Settled ∧ LatestOk exTwoVersions.stored := by
  have hm : DbOk ['x'] (afterCalls asciiU ['x'] exBefore97) := dbOk_of_check (by decide +kernel)
  unfold exTwoVersions
  split
  · next es h =>
    obtain ⟨es1, h1, h2⟩ := first_sync hm (realParser exEnv') 10
    have e := (trySync_same h).symm.trans h1
    cases e
    exact ⟨⟨h2.ok.indices, fun _ => rfl, rfl⟩, h2.ok⟩
  · exact ⟨exNone_settled, latestOk_nil⟩

theorem exThenBad97_ok : DbOk ['x'] (afterCalls asciiU ['x'] exThenBad97) := dbOk_of_check (by decide +kernel)

set_option maxRecDepth 100000 in
/-- **C97 does not hold** either for `sync(resync=True)`: the old version of the record is not found any more. -/
theorem C97_resync_refuted : ¬ C97_full := by
  intro h
  cases hr : exRaised true (afterCalls asciiU ['x'] exThenBad97) exTwoVersions [.task .mainRaises] with
  | none =>
    have : (exRaised true (afterCalls asciiU ['x'] exThenBad97) exTwoVersions [.task .mainRaises]).isSome = true := by decide +kernel
    rw [hr] at this; cases this
  | some s =>
    obtain ⟨c1, ops, e, h1, h2⟩ := exRaised_elim hr
    obtain ⟨h3, _⟩ := h exEnv' exFormatFails 10 ['x'] true _ exTwoVersions c1 ops e exBulk1 _ s exThenBad97_ok exTwoVersions_settled.1 exTwoVersions_settled.2
      (by decide) h1 h2
    have k1 : ((exRaised true (afterCalls asciiU ['x'] exThenBad97) exTwoVersions [.task .mainRaises]).map (fun s =>
      (s.cluster.visible.docs (.arc 0)).length)) = some 0 := by decide +kernel
    have k2 : (exTwoVersions.visible.docs (.arc 0)).length = 1 := by decide +kernel
    rw [hr] at k1
    simp only [Option.map_some, Option.some.injEq] at k1
    have := (h3.docs (.arc 0)).length_eq
    omega

set_option maxRecDepth 100000 in
/-- The hypotheses of the theorems above are met: two syncs raise after each other, the first after it has written a document, which is then
stored but not seen; the next one raises too. -/
example : ∃ c', RaisedSyncs exEnv' exFormatFails 10 ['x'] exNone c' ∧ (c'.stored.docs .latest).length = 1 ∧ c'.visible.docs .latest = [] ∧
    ∃ e, trySync exEnv' exFormatFails 10 ['x'] false (afterCalls asciiU ['x'] exGoodBad) c'.view = .error e := by
  have hids : (((afterCalls asciiU ['x'] exGoodBad).data ['x']).map MongoRecord.id).Nodup := by decide +kernel
  have k : ((exRaised false (afterCalls asciiU ['x'] exGoodBad) exNone exRaising).bind (fun s =>
      (exRaised false (afterCalls asciiU ['x'] exGoodBad) s.cluster [.task .mainRaises]).map (fun s =>
        (((s.cluster.stored.docs .latest).length, (s.cluster.visible.docs .latest).length) : Nat × Nat)))) = some (1, 0) := by decide +kernel
  cases hr : exRaised false (afterCalls asciiU ['x'] exGoodBad) exNone exRaising with
  | none => rw [hr] at k; cases k
  | some s =>
    rw [hr, Option.bind_some] at k
    cases hr2 : exRaised false (afterCalls asciiU ['x'] exGoodBad) s.cluster [.task .mainRaises] with
    | none => rw [hr2] at k; cases k
    | some s2 =>
      rw [hr2] at k
      simp only [Option.map_some, Option.some.injEq, Prod.mk.injEq] at k
      obtain ⟨c1, ops, e, h1, h2⟩ := exRaised_elim hr
      obtain ⟨c2, ops2, e2, h3, h4⟩ := exRaised_elim hr2
      have hR : RaisedSyncs exEnv' exFormatFails 10 ['x'] exNone s2.cluster :=
        .more _ exBulk1 _ s2 (.more _ exBulk1 _ s (.none _) hids h1 (by decide) (by simp [NoOthers, exRaising]) h2) hids h3 (by decide)
          (by simp [NoOthers]) h4
      refine ⟨s2.cluster, hR, k.1, List.length_eq_zero_iff.1 k.2, ?_⟩
      exact (C97_again_partial _ _ _ _ _ _ exNone_settled.held latestOk_nil hR _ exGoodBad_ok).2 (tryStart_raises.1 (.inl ⟨_, _, _, h1⟩))

set_option maxRecDepth 100000 in
/-- And a repair: with other libraries, `sync(resync=True)` returns. -/
example : hasData ['x'] (afterCalls asciiU ['x'] exGoodBad) = true ∧
    ((exRaised false (afterCalls asciiU ['x'] exGoodBad) exNone exRaising).map (fun s =>
      match trySync exEnv' ⟨fun _ _ => false, fun _ => false, fun _ _ _ _ => false⟩ 10 ['x'] true (afterCalls asciiU ['x'] exGoodBad) s.cluster.stored with
      | .ok es => (es.docs .latest).length
      | .error _ => 0)) = some 2 := by
  constructor <;> decide +kernel

set_option maxRecDepth 100000 in
/-- The stream of two records, of which the second cannot be parsed, has the operation of the first. -/
example : (match tryStart exEnv' exFormatFails 10 ['x'] false (afterCalls asciiU ['x'] exGoodBad) exNone with
    | .ok (some (_, ops, e)) => decide (ops.length = 1 ∧ e.isSome = true)
    | _ => false) = true := by decide +kernel

set_option maxRecDepth 100000 in
/-- `resync_arcs()` of two versions writes the older one into an archive; with data that cannot be parsed it raises. -/
example : ((tryStartArcs exEnv' exFormatFails 10 ['x'] (afterCalls asciiU ['x'] exBefore97) exTwoVersions).2.1.map BulkOp.ix,
      (tryStartArcs exEnv' exFormatFails 10 ['x'] (afterCalls asciiU ['x'] exBefore97) exTwoVersions).2.2.isNone,
      (tryStartArcs exEnv' exFormatFails 10 ['x'] (afterCalls asciiU ['x'] exThenBad97) exTwoVersions).2.2.isNone) =
    ([Ix.arc 0], true, false) := by decide +kernel

end Splitgill.Props
