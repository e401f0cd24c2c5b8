import Verif.Proof.Repeat
import Verif.Props.Bulk
/-!
# C87: syncs at the same time, and repeated syncs
-/

namespace Splitgill.Props
open Splitgill

/-- C87 in full: several syncs of the same data, at the same time or because some failed, give the indices of one sync when one of them
has returned. `written` are the operations that were carried out, in any order. -/
def C87_full : Prop :=
  ∀ (P : Type) (X : Parser P) (maxDocs : Nat) (db : PyStr) (m : Mongo) (es : ES P) (attempts : List (Attempt P)) (written : List (BulkOp P)),
    DbOk db m → LatestOk es → (∀ a ∈ attempts, a.Of X maxDocs db m es) → (∃ a ∈ attempts, a.Returns) →
    written.Perm (attempts.flatMap (fun a => a.state.written)) →
    ∃ es1, sync X maxDocs db false m es = .ok es1 ∧ SameIndices (es.applyOps written) es1

/-- A sync of an empty index, written with a schedule. -/
def exAttempt (calls : List ApiCall) (schedule : List BulkAction) : Option (Attempt (Dict × ParsingOptions)) :=
  match syncOps exParser 10 ['x'] false (exDbOf calls) [] with
  | .error _ => none
  | .ok (_, ops) => (writeOps BulkOp.isDelete ops exBulk schedule).map (fun s => ⟨[], ops, exBulk, schedule, s⟩)

theorem exAttempt_of {calls : List ApiCall} {schedule : List BulkAction} {a : Attempt (Dict × ParsingOptions)}
    (h : exAttempt calls schedule = some a) : a.Of exParser 10 ['x'] (exDbOf calls) [] := by
  unfold exAttempt at h
  split at h
  · cases h
  · next es0 ops hops =>
    cases hs : writeOps BulkOp.isDelete ops exBulk schedule with
    | none => rw [hs] at h; cases h
    | some s =>
      rw [hs] at h
      cases h
      exact ⟨List.nodup_nil, fun _ => rfl, ⟨es0, hops⟩, by show 1 ≤ 2; decide, hs⟩

set_option maxRecDepth 100000 in
/-- **C87 does not hold in full**: two syncs that run at the same time both append the older versions to the archives, which then have each
of them twice. Nothing keeps two syncs from running at once. -/
theorem C87_refuted : ¬ C87_full := by
  intro h
  cases ha : exAttempt exCalls2 exOvertake with
  | none =>
    have : (exAttempt exCalls2 exOvertake).isSome = true := by decide
    rw [ha] at this; cases this
  | some a =>
    have hof := exAttempt_of ha
    obtain ⟨es1, h1, h2⟩ := h _ exParser 10 ['x'] (exDbOf exCalls2) [] [a, a] _ (dbOk_of_check (by decide)) latestOk_nil
      (by rintro x hx; simp at hx; subst hx; exact hof)
      ⟨a, List.mem_cons_self .., by
        have : (match (exAttempt exCalls2 exOvertake).map (fun a => a.state.main) with | some (.returned _ _) => true | _ => false) = true := by decide
        rw [ha] at this
        unfold Attempt.Returns
        dsimp only [Option.map] at this
        split at this
        · next i d e => exact ⟨i, d, Option.some.inj e⟩
        · cases this⟩ (.refl _)
    have e1 : (match exAttempt exCalls2 exOvertake with
      | some a => (ES.applyOps [] ([a, a].flatMap (fun a => a.state.written))).archived.length | none => 0) = 6 := by decide
    rw [ha] at e1
    have e2 : (match sync exParser 10 ['x'] false (exDbOf exCalls2) [] with | .ok es => es.archived.length | .error _ => 0) = 3 := by decide
    rw [h1] at e2
    have := h2.archived.length_eq
    dsimp only at e1 e2
    omega

/-- **C87**, all but the duplicates: whatever the syncs have written, in whatever order, when one of them has returned the latest index is that
of one sync, and all searches find the same documents as after one sync - those in archives possibly several times. -/
theorem C87_found_partial {P : Type} (X : Parser P) (maxDocs : Nat) (db : PyStr) (m : Mongo) (es : ES P)
    (hids : ((m.data db).map MongoRecord.id).Nodup) (hok : LatestOk es) (attempts : List (Attempt P))
    (hof : ∀ a ∈ attempts, a.Of X maxDocs db m es) (hret : ∃ a ∈ attempts, a.Returns) (written : List (BulkOp P))
    (hw : written.Perm (attempts.flatMap (fun a => a.state.written))) :
    ∃ es1, sync X maxDocs db false m es = .ok es1 ∧ ((es.applyOps written).docs .latest).Perm (es1.docs .latest) ∧
      (es.applyOps written).version = es1.version ∧ (found (es.applyOps written) .latest).Perm (found es1 .latest) ∧
      ∀ at_ d, d ∈ found (es.applyOps written) at_ ↔ d ∈ found es1 at_ := by
  obtain ⟨a, ha, i, d, hr⟩ := hret
  have hofa := hof a ha
  obtain ⟨es0, hops⟩ := hofa.ops
  obtain ⟨ops, h1, h2⟩ := syncOps_sees hok.indices hofa.keys hofa.sees hops
  obtain ⟨hg, hc, _⟩ := syncOps_latest hids h1
  have hsame : AlikeOps written ops := by
    intro op
    constructor
    · intro hop
      obtain ⟨op', k1, k2⟩ := List.mem_map.1 hop
      obtain ⟨b, hb, k3⟩ := List.mem_flatMap.1 (hw.mem_iff.1 k1)
      have hofb := hof b hb
      obtain ⟨es0', hops'⟩ := hofb.ops
      obtain ⟨ops', g1, g2⟩ := syncOps_sees hok.indices hofb.keys hofb.sees hops'
      rw [h1] at g1
      cases g1
      rw [g2]
      exact List.mem_map.2 ⟨op', written_sub hofb.size hofb.run k3, k2⟩
    · intro hop
      rw [h2] at hop
      obtain ⟨op', k1, k2⟩ := List.mem_map.1 hop
      refine List.mem_map.2 ⟨op', hw.mem_iff.2 (List.mem_flatMap.2 ⟨a, ha, ?_⟩), k2⟩
      rw [(written_perm hofa.size hofa.run hr).mem_iff]
      exact List.mem_append_left _ k1
  obtain ⟨f1, f2⟩ := hsame.found hok hg hc
  have hl := hsame.docs_latest hok hg hc
  exact ⟨es.applyOps ops, by simp only [sync, h1], hl, f1, hl.map _, f2⟩

set_option maxRecDepth 100000 in
/-- The hypotheses hold for two syncs of which one fails after it has written one chunk and the other returns. -/
example : (((exDbOf exCalls2).data ['x']).map MongoRecord.id).Nodup ∧
    ((exAttempt exCalls2 exOvertake).map (fun a => (match a.state.main with | .returned _ _ => true | _ => false, a.state.written.length))) = some (true, 4) ∧
    ((exAttempt exCalls2 [.main, .main, .get 0, .response 0 (.items [false, false]), .mainRaises]).map (fun a => a.state.written.length)) = some 2 := by
  decide

/-- **C87**, without archives: if no operation is for an archive (as when all records of the first sync have one version) the
indices are exactly those of one sync. -/
theorem C87_latest_partial {P : Type} (X : Parser P) (maxDocs : Nat) (db : PyStr) (m : Mongo) (es : ES P)
    (hids : ((m.data db).map MongoRecord.id).Nodup) (hok : LatestOk es) (attempts : List (Attempt P))
    (hof : ∀ a ∈ attempts, a.Of X maxDocs db m es) (hret : ∃ a ∈ attempts, a.Returns) (written : List (BulkOp P))
    (hw : written.Perm (attempts.flatMap (fun a => a.state.written))) (harc : ∀ a ∈ attempts, ∀ op ∈ a.ops, ¬ op.isArchive) :
    ∃ es1, sync X maxDocs db false m es = .ok es1 ∧ SameDocs (es.applyOps written) es1 := by
  have hnw : ∀ op ∈ written, ¬ op.isArchive := fun op hop => by
    obtain ⟨b, hb, h⟩ := List.mem_flatMap.1 (hw.mem_iff.1 hop)
    exact harc b hb op (written_sub (hof b hb).size (hof b hb).run h)
  obtain ⟨es1, h1, h2, _⟩ := C87_found_partial X maxDocs db m es hids hok attempts hof hret written hw
  obtain ⟨a, ha, i, d, hr⟩ := hret
  have hofa := hof a ha
  obtain ⟨es0, hops⟩ := hofa.ops
  obtain ⟨ops, h3, h4⟩ := syncOps_sees hok.indices hofa.keys hofa.sees hops
  rw [sync, h3] at h1
  cases h1
  have hno : ∀ op ∈ ops, ¬ op.isArchive := fun op hop => by
    have : op.anyArc ∈ a.ops.map BulkOp.anyArc := h4 ▸ List.mem_map_of_mem hop
    obtain ⟨op', k1, k2⟩ := List.mem_map.1 this
    have := harc a ha op' k1
    rintro ⟨n, hn⟩
    cases op with
    | delete j y =>
      cases hn
      cases op' with
      | delete i x => cases k2; exact this ⟨n, rfl⟩
      | index i x d => cases i <;> cases k2
    | index j y d =>
      cases hn
      cases op' with
      | delete i x => cases k2
      | index i x d =>
        cases i with
        | latest => cases k2
        | arc k => exact this ⟨k, rfl⟩
  obtain ⟨hg, hc, _⟩ := syncOps_latest hids h3
  have hmem : ∀ op, op ∈ written ↔ op ∈ ops := by
    have hany : ∀ op : BulkOp P, ¬ op.isArchive → op.anyArc = op := fun op h => by
      cases op with
      | delete i x => rfl
      | index i x d =>
        cases i with
        | latest => rfl
        | arc n => exact absurd ⟨n, rfl⟩ h
    intro op
    constructor
    · intro hop
      obtain ⟨b, hb, k3⟩ := List.mem_flatMap.1 (hw.mem_iff.1 hop)
      have hofb := hof b hb
      obtain ⟨es0', hops'⟩ := hofb.ops
      obtain ⟨ops', g1, g2⟩ := syncOps_sees hok.indices hofb.keys hofb.sees hops'
      rw [h3] at g1
      cases g1
      have : op.anyArc ∈ ops.map BulkOp.anyArc := g2 ▸ List.mem_map_of_mem (written_sub hofb.size hofb.run k3)
      obtain ⟨op', k1, k2⟩ := List.mem_map.1 this
      rw [hany op' (hno op' k1), hany op (hnw op hop)] at k2
      exact k2 ▸ k1
    · intro hop
      have : op.anyArc ∈ a.ops.map BulkOp.anyArc := h4 ▸ List.mem_map_of_mem hop
      obtain ⟨op', k1, k2⟩ := List.mem_map.1 this
      rw [hany op' (harc a ha op' k1), hany op (hno op hop)] at k2
      refine hw.mem_iff.2 (List.mem_flatMap.2 ⟨a, ha, ?_⟩)
      rw [(written_perm hofa.size hofa.run hr).mem_iff]
      exact List.mem_append_left _ (k2 ▸ k1)
  refine ⟨_, by rw [sync, h3], fun ix => ?_, fun ix => ?_⟩
  · rw [applyOps_keys, applyOps_keys]
    simp only [hmem]
  · cases ix with
    | latest => exact h2
    | arc k =>
      have hnil : ∀ l : List (BulkOp P), (∀ op ∈ l, ¬ op.isArchive) → l.filterMap (BulkOp.arcDoc k) = [] := fun l hl =>
        List.filterMap_eq_nil_iff.2 fun op hop => by
          cases e : op.arcDoc k with
          | none => rfl
          | some x => exact absurd ⟨k, by rw [arcDoc_some.1 e]; rfl⟩ (hl op hop)
      rw [applyOps_arcDocs hg, applyOps_arcDocs (fun op hop => hg op ((hmem op).1 hop)), hnil _ hnw, hnil _ hno]

set_option maxRecDepth 100000 in
/-- The first sync of two new records has no operation for an archive. -/
example : ((exAttempt exCalls1 [.main, .get 0, .response 0 (.items [false, false]), .main, .main, .main, .main, .get 0, .get 1, .main, .main,
    .refreshed true]).map (fun a => (match a.state.main with | .returned _ _ => true | _ => false, a.ops.map BulkOp.ix))) =
    some (true, [.latest, .latest]) := by
  decide

end Splitgill.Props
