import Verif.Proof.Versions
import Verif.Props.OptHist
import Verif.Props.Filter
/-!
# C80: the versions of a database, from calls of the API to what is listed

`ingested U db calls` are the histories of the records and `optionsGiven U db calls` is that of the options, according to what the
calls were given and what they returned; a version at which a record changes is described in `Verif.Spec.Versions`.
-/

namespace Splitgill.Props
open Splitgill

/-- The versions `vs` that are listed are those at which some record changes, `get_rounded_version` finds the last of them that is not
after the one asked for, and all of them were returned by calls. -/
structure ListsVersions {P : Type} (E : ParseEnv) (U : Unicode) (db : PyStr) (calls : List ApiCall) (es : ES P) (vs : List Int) : Prop where
  ascending : vs.Pairwise (· < ·)
  changes : ∀ v, v ∈ vs ↔ ∃ id, (ingested U db calls id).pending = none ∧
    ChangesAt E (ingested U db calls id).committed (optionsGiven U db calls).committed v
  returned : ∀ v ∈ vs, Returned U db calls v
  rounded : ∀ v, (es.roundedVersion v = some none ∧ ∀ w ∈ vs, v < w) ∨
    ∃ w, es.roundedVersion v = some (some w) ∧ w ∈ vs ∧ w ≤ v ∧ ∀ w' ∈ vs, w' ≤ v → w' ≤ w

/-- **C80**, as it should be: after a sync, `get_versions()` lists the versions at which a record appears, disappears or is read
differently, because of its data or of the options. -/
def C80_full : Prop :=
  ∀ (E : ParseEnv), E.IgnoresOrder → E.ScalarHints → E.NumbersExist → ∀ (U : Unicode), U.Sane → ∀ (maxDocs : Nat) (db : PyStr)
    (calls : List ApiCall), Orderly calls → (∀ o ∈ calls.filterMap ApiCall.options?, OptionsOk o) →
    (∃ v, IsVersion (afterCalls U db calls) db v) → NoPending db (afterCalls U db calls) →
    (∀ r ∈ calls.flatMap ApiCall.stream, (Value.dict (prepareRecordData U r)).noNaN = true) →
    ∃ es vs, sync (realParser E) maxDocs db false (afterCalls U db calls) [] = .ok es ∧ es.versions = some vs ∧
      ListsVersions E U db calls es vs

theorem listsVersions {E : ParseEnv} {U : Unicode} {db : PyStr} {calls : List ApiCall} {es : ES (Option ParsedData)}
    (ho : Orderly calls) (hopt : ∀ o ∈ calls.filterMap ApiCall.options?, OptionsOk o)
    (h : ∃ vs, es.versions = some vs ∧ vs.Pairwise (· < ·) ∧
      (∀ v, v ∈ vs ↔ ∃ id, (ingested U db calls id).pending = none ∧
        ChangesAt E (ingested U db calls id).committed (committedOptionsOf db (afterCalls U db calls)) v) ∧
      (∀ v ∈ vs, (∃ id, v ∈ (ingested U db calls id).committed.map Prod.fst) ∨
        v ∈ (committedOptionsOf db (afterCalls U db calls)).map Prod.fst) ∧
      ∀ v, (es.roundedVersion v = some none ∧ ∀ w ∈ vs, v < w) ∨
        ∃ w, es.roundedVersion v = some (some w) ∧ w ∈ vs ∧ w ≤ v ∧ ∀ w' ∈ vs, w' ≤ v → w' ≤ w) :
    ∃ vs, es.versions = some vs ∧ ListsVersions E U db calls es vs := by
  obtain ⟨vs, k1, k2, k3, k4, k5⟩ := h
  rw [C79_indexed U db calls ho.clock hopt] at k3 k4
  refine ⟨vs, k1, k2, k3, fun v hv => ?_, k5⟩
  rcases k4 v hv with ⟨id, h⟩ | h
  · exact ingested_returned h
  · exact (C79_versions U db calls ho.clock hopt).2 v h

/-- **C80** (what holds) after one sync: as above if no two data given for a record hold equal but different scalars at the same
place. Records with uncommitted data are not counted. -/
theorem C80_first_sync_partial (E : ParseEnv) (hE : E.IgnoresOrder) (hS : E.ScalarHints) (hN : E.NumbersExist) (U : Unicode) (hU : U.Sane)
    (maxDocs : Nat) (db : PyStr) (calls : List ApiCall) (ho : Orderly calls) (hopt : ∀ o ∈ calls.filterMap ApiCall.options?, OptionsOk o)
    (hv : ∃ v, IsVersion (afterCalls U db calls) db v) (hn : NoPunsAmong U (calls.flatMap ApiCall.stream))
    (hnan : ∀ r ∈ calls.flatMap ApiCall.stream, (Value.dict (prepareRecordData U r)).noNaN = true) :
    ∃ es vs, sync (realParser E) maxDocs db false (afterCalls U db calls) [] = .ok es ∧ es.versions = some vs ∧
      ListsVersions E U db calls es vs := by
  obtain ⟨es, hi, h1, hl, hm, h2, h3⟩ := setup_first E U hU maxDocs db calls ho hv hn
  obtain ⟨vs, k1, k2⟩ := listsVersions ho hopt (hl.versions hE hS hN hm h2 h3 (fun id x hx => by
    obtain ⟨r, hr, _, e⟩ := ingested_from U db calls hx
    rw [e]; exact hnan r hr))
  exact ⟨es, vs, h1, k1, k2⟩

/-- **C80** (what holds) after any calls and syncs between them, under the conditions of C70. -/
theorem C80_syncs_partial (E : ParseEnv) (hE : E.IgnoresOrder) (hS : E.ScalarHints) (hN : E.NumbersExist) (U : Unicode) (hU : U.Sane)
    (maxDocs : Nat) (db : PyStr) (first : List ApiCall) (parts : List (List ApiCall)) (ho : Orderly (first ++ parts.flatten))
    (hopt : ∀ o ∈ (first ++ parts.flatten).filterMap ApiCall.options?, OptionsOk o)
    (hv : ∃ v, IsVersion (afterCalls U db first) db v) (he : EachPart (NoUpdateDelete db) U db first parts)
    (hp : ∀ m ∈ statesOf U db first parts, NoPending db m)
    (hn : NoPunsAmong U ((first ++ parts.flatten).flatMap ApiCall.stream))
    (hnan : ∀ r ∈ (first ++ parts.flatten).flatMap ApiCall.stream, (Value.dict (prepareRecordData U r)).noNaN = true) :
    ∃ es vs, runSyncs (realParser E) maxDocs db [] (statesOf U db first parts) = .ok es ∧ es.versions = some vs ∧
      ListsVersions E U db (first ++ parts.flatten) es vs := by
  obtain ⟨es, hi, h1, hl, hm, h2, h3, _⟩ := setup_syncs E hE U hU maxDocs db first parts ho hv he hp hn
  obtain ⟨vs, k1, k2⟩ := listsVersions ho hopt (hl.versions hE hS hN hm h2 h3 (fun id x hx => by
    obtain ⟨r, hr, _, e⟩ := ingested_from U db _ hx
    rw [e]; exact hnan r hr))
  exact ⟨es, vs, h1, k1, k2⟩

theorem exEnv'_numbers : exEnv'.NumbersExist := by
  intro s f h
  simp only [exEnv', exEnv] at h
  split at h <;> simp_all
  rintro rfl
  cases h

/-- Options without true values at 1, a record with `1` at 2, options for which `"1"` is true at 3, and `True` with another field
at 4. -/
def exVersionsPun : List ApiCall := exPun1 ++ exPun2 ++ exPun3

set_option maxRecDepth 100000 in
/-- **C80 does not hold in full**: when a record holds `1` and later `True` in the same place, the older version is read back with `True`;
new options for which `1` is read differently are then not listed as a change of the record. -/
theorem C80_refuted : ¬ C80_full := by
  intro h
  obtain ⟨es, vs, h1, h2, h3⟩ := h exEnv' exEnv'_order exEnv'_scalar exEnv'_numbers asciiU asciiU_sane 10 ['x'] exVersionsPun
    ⟨by decide +kernel, by
      intro c hc
      simp only [exVersionsPun, exPun1, exPun2, exPun3, List.cons_append, List.nil_append, List.mem_cons, List.not_mem_nil, or_false] at hc
      rcases hc with rfl | rfl | rfl | rfl <;> unfold NoSpan <;> decide⟩
    (by
      intro o ho
      have : o ∈ [exPunOpts [], exPunOpts [['1']]] := ho
      simp only [List.mem_cons, List.not_mem_nil, or_false] at this
      rcases this with rfl | rfl <;> exact ⟨by decide, by decide, by decide, by decide⟩)
    ⟨1, .inr ⟨(afterCalls asciiU ['x'] exVersionsPun).options.head (by decide +kernel), by decide +kernel, by decide +kernel, by decide +kernel⟩⟩
    (by
      have : ∀ r ∈ (afterCalls asciiU ['x'] exVersionsPun).data ['x'], r.version ≠ none := by decide +kernel
      exact this)
    (by decide +kernel)
  have hes : exIndexed exVersionsPun = es := by unfold exIndexed; rw [h1]
  subst hes
  have hvs : (exIndexed exVersionsPun).versions = some [2, 4] := by decide +kernel
  rw [hvs] at h2; cases h2
  have h3 : (3 : Int) ∈ [(2 : Int), 4] := (h3.changes 3).2 ⟨['a'], by decide +kernel, .inr (.inr ?_)⟩
  · revert h3; decide
  have e : (ingested asciiU ['x'] exVersionsPun ['a']).committed =
    [(4, [(['x'], .bool true), (['y'], .int 2), ("_id".toList, .str ['a'])]), (2, [(['x'], .int 1), ("_id".toList, .str ['a'])])] := by
    decide +kernel
  have e' : effectiveOptions (ingested asciiU ['x'] exVersionsPun ['a']).committed (optionsGiven asciiU ['x'] exVersionsPun).committed =
    [(1, exPunOpts []), (3, exPunOpts [['1']])] := by decide +kernel
  have hw : (Value.dict [(['x'], .int 1), ("_id".toList, .str ['a'])]).wf = true := by decide +kernel
  obtain ⟨p, hp⟩ := parse_total (E := exEnv') (o := exPunOpts []) exEnv'_scalar hw
  obtain ⟨q, hq⟩ := parse_total (E := exEnv') (o := exPunOpts [['1']]) exEnv'_scalar hw
  refine ⟨p, q, ⟨_, _, ?_, ?_, ?_, hp⟩, ⟨_, _, ?_, ?_, ?_, hq⟩, ?_⟩
  · rw [e]; exact ⟨2, by simp, by omega, by intro w' y h; simp only [List.mem_cons, Prod.mk.injEq, List.not_mem_nil, or_false] at h; omega⟩
  · simp
  · rw [e']; exact .inl ⟨1, by simp, by omega, by intro w' y h; simp only [List.mem_cons, Prod.mk.injEq, List.not_mem_nil, or_false] at h; omega⟩
  · rw [e]; exact ⟨2, by simp, by omega, by intro w' y h; simp only [List.mem_cons, Prod.mk.injEq, List.not_mem_nil, or_false] at h; omega⟩
  · simp
  · rw [e']; exact .inl ⟨3, by simp, by omega, by intro w' y h; simp only [List.mem_cons, Prod.mk.injEq, List.not_mem_nil, or_false] at h; omega⟩
  · rintro ⟨_, _, ht⟩
    have hne : ((parse exEnv' (exPunOpts []) [(['x'], .int 1), ("_id".toList, .str ['a'])]).toOption.map (·.parsedTypes)) ≠
        ((parse exEnv' (exPunOpts [['1']]) [(['x'], .int 1), ("_id".toList, .str ['a'])]).toOption.map (·.parsedTypes)) := by
      decide +kernel
    rw [hp, hq] at hne
    exact hne (congrArg some ht)

set_option maxRecDepth 100000 in
/-- The hypotheses hold for the calls of C70: two records at 1, one changes at 2, the other is deleted at 3, and new options at 4 cut
keywords elsewhere, which changes nothing here. -/
example : exEnv'.NumbersExist ∧ (∀ o ∈ (exCalls1 ++ exParts.flatten).filterMap ApiCall.options?, OptionsOk o) ∧
    (∀ r ∈ (exCalls1 ++ exParts.flatten).flatMap ApiCall.stream, (Value.dict (prepareRecordData asciiU r)).noNaN = true) ∧
    (match runSyncs (realParser exEnv') 10 ['x'] [] (statesOf asciiU ['x'] exCalls1 exParts) with
      | .ok es => decide (es.versions = some [1, 2, 3] ∧ es.roundedVersion 7 = some (some 3) ∧ es.changedCounts = some [(1, 2), (2, 1), (3, 1)])
      | .error _ => false) = true := by
  refine ⟨exEnv'_numbers, ?_, by decide +kernel, by decide +kernel⟩
  intro o ho
  have : o ∈ [exOpts 20] := ho
  rw [List.mem_singleton] at this
  subst this
  exact ⟨by decide, by decide, by decide, by decide⟩

/-! ## C39 from calls -/

/-- The counts `c` of changes by version: a version at which no record changes has none; otherwise it is the number of the records that change,
if all of them appear or none does; and if some appear and some do not, the number of those that do not. -/
structure CountsChanges (E : ParseEnv) (s : Store) (opts : List (Int × ParsingOptions)) (ids : List PyStr) (c : List (Int × Nat)) : Prop where
  once : (akeys c).Nodup
  absent : ∀ v, aget v c = none ↔ ¬ ∃ id, (s id).pending = none ∧ ChangesAt E (s id).committed opts v
  alike : ∀ v n, aget v c = some n →
    (∀ id, (s id).pending = none → ¬ AppearsAt (s id).committed v) ∨
      (∀ id, (s id).pending = none → ChangesAt E (s id).committed opts v → AppearsAt (s id).committed v) →
    n = howMany ids (fun id => (s id).pending = none ∧ ChangesAt E (s id).committed opts v)
  mixed : ∀ v n, aget v c = some n →
    (∃ id, (s id).pending = none ∧ ChangesAt E (s id).committed opts v ∧ ¬ AppearsAt (s id).committed v) →
    n = howMany ids (fun id => (s id).pending = none ∧ ChangesAt E (s id).committed opts v ∧ ¬ AppearsAt (s id).committed v)

/-- **C39** (what holds) from calls, after one sync. -/
theorem C39_first_sync_partial (E : ParseEnv) (hE : E.IgnoresOrder) (hS : E.ScalarHints) (hN : E.NumbersExist) (U : Unicode) (hU : U.Sane)
    (maxDocs : Nat) (db : PyStr) (calls : List ApiCall) (ho : Orderly calls) (hopt : ∀ o ∈ calls.filterMap ApiCall.options?, OptionsOk o)
    (hv : ∃ v, IsVersion (afterCalls U db calls) db v) (hn : NoPunsAmong U (calls.flatMap ApiCall.stream))
    (hnan : ∀ r ∈ calls.flatMap ApiCall.stream, (Value.dict (prepareRecordData U r)).noNaN = true)
    (ids : List PyStr) (hids : ids.Nodup) (hall : ∀ r ∈ calls.flatMap ApiCall.stream, r.id ∈ ids) :
    ∃ es c, sync (realParser E) maxDocs db false (afterCalls U db calls) [] = .ok es ∧ es.changedCounts = some c ∧
      CountsChanges E (ingested U db calls) (optionsGiven U db calls).committed ids c := by
  obtain ⟨es, hi, h1, hl, hm, h2, h3⟩ := setup_first E U hU maxDocs db calls ho hv hn
  obtain ⟨c, k1, k2, k3⟩ := hl.counts hE hS hN hm h2 h3 (fun id x hx => by
    obtain ⟨r, hr, _, e⟩ := ingested_from U db calls hx
    rw [e]; exact hnan r hr) hids (fun id h => by
      obtain ⟨x, hx⟩ := List.exists_mem_of_ne_nil _ h
      obtain ⟨r, hr, rfl, _⟩ := ingested_from U db _ hx
      exact hall r hr)
  rw [C79_indexed U db calls ho.clock hopt] at k3
  exact ⟨es, c, h1, k1, k2, fun v => (k3 v).1, fun v n h => ((k3 v).2 n h).1, fun v n h => ((k3 v).2 n h).2⟩

/-- **C39** (what holds) from calls, after any calls and syncs between them. -/
theorem C39_syncs_partial (E : ParseEnv) (hE : E.IgnoresOrder) (hS : E.ScalarHints) (hN : E.NumbersExist) (U : Unicode) (hU : U.Sane)
    (maxDocs : Nat) (db : PyStr) (first : List ApiCall) (parts : List (List ApiCall)) (ho : Orderly (first ++ parts.flatten))
    (hopt : ∀ o ∈ (first ++ parts.flatten).filterMap ApiCall.options?, OptionsOk o)
    (hv : ∃ v, IsVersion (afterCalls U db first) db v) (he : EachPart (NoUpdateDelete db) U db first parts)
    (hp : ∀ m ∈ statesOf U db first parts, NoPending db m)
    (hn : NoPunsAmong U ((first ++ parts.flatten).flatMap ApiCall.stream))
    (hnan : ∀ r ∈ (first ++ parts.flatten).flatMap ApiCall.stream, (Value.dict (prepareRecordData U r)).noNaN = true)
    (ids : List PyStr) (hids : ids.Nodup) (hall : ∀ r ∈ (first ++ parts.flatten).flatMap ApiCall.stream, r.id ∈ ids) :
    ∃ es c, runSyncs (realParser E) maxDocs db [] (statesOf U db first parts) = .ok es ∧ es.changedCounts = some c ∧
      CountsChanges E (ingested U db (first ++ parts.flatten)) (optionsGiven U db (first ++ parts.flatten)).committed ids c := by
  obtain ⟨es, hi, h1, hl, hm, h2, h3, _⟩ := setup_syncs E hE U hU maxDocs db first parts ho hv he hp hn
  obtain ⟨c, k1, k2, k3⟩ := hl.counts hE hS hN hm h2 h3 (fun id x hx => by
    obtain ⟨r, hr, _, e⟩ := ingested_from U db _ hx
    rw [e]; exact hnan r hr) hids (fun id h => by
      obtain ⟨x, hx⟩ := List.exists_mem_of_ne_nil _ h
      obtain ⟨r, hr, rfl, _⟩ := ingested_from U db _ hx
      exact hall r hr)
  rw [C79_indexed U db _ ho.clock hopt] at k3
  exact ⟨es, c, h1, k1, k2, fun v => (k3 v).1, fun v n h => ((k3 v).2 n h).1, fun v n h => ((k3 v).2 n h).2⟩

end Splitgill.Props
