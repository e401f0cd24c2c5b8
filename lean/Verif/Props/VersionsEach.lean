import Verif.Props.NowEach
import Verif.Props.Versions
import Verif.Proof.Overlap
/-!
# C38 and C80 for all indices that syncs make: other records may be as they like
-/

namespace Splitgill.Props
open Splitgill

section
variable {P : Type} {es : ES P}

theorem mem_buckets_iff (docs : List (List Int)) (v : Int) : v ∈ akeys (buckets docs) ↔ ∃ d ∈ docs, v ∈ d := by
  rw [← aget_isSome_iff, aget_buckets]
  by_cases h0 : docs.countP (fun d => decide (v ∈ d)) = 0
  · rw [if_pos h0]
    constructor
    · intro h; cases h
    · rintro ⟨d, hd, hv⟩
      exact absurd (decide_eq_true hv) (List.countP_eq_zero.1 h0 d hd)
  · rw [if_neg h0]
    obtain ⟨d, hd, hv⟩ := List.countP_pos_iff.1 (Nat.pos_of_ne_zero h0)
    exact ⟨fun _ => ⟨d, hd, of_decide_eq_true hv⟩, fun _ => rfl⟩

/-- The versions that are listed are the `version` and `next` of documents. -/
theorem versions_docs (es : ES P) : ∃ vs, es.versions = some vs ∧ vs.Pairwise (· < ·) ∧
    ∀ v, v ∈ vs ↔ ∃ d ∈ es.all, d.version = v ∨ d.next = some v := by
  refine ⟨_, by unfold ES.versions; rw [changedCounts_eq]; rfl, ?_, fun v => ?_⟩
  · have hs := sortBy_pairwise (le := fun a b : Int => decide (a ≤ b)) (by intro a b h; simp at *; omega)
      (by intro a b c h1 h2; simp at *; omega) (akeys (aupdate (aofList (buckets (versionValues es.all))) (buckets (nextValues es.all))))
    have hn := (sortBy_perm (fun a b : Int => decide (a ≤ b)) _).nodup_iff.2
      (nodup_aupdate (e := buckets (nextValues es.all)) (nodup_aofList (buckets (versionValues es.all))))
    refine (hs.and hn).imp ?_
    rintro a b ⟨hab, hne⟩
    simp only [decide_eq_true_eq] at hab
    omega
  · have e := (sortBy_perm (fun a b : Int => decide (a ≤ b))
      (akeys (aupdate (aofList (buckets (versionValues es.all))) (buckets (nextValues es.all))))).mem_iff (a := v)
    refine e.trans ?_
    rw [mem_akeys_aupdate, mem_akeys_aofList, mem_buckets_iff, mem_buckets_iff]
    simp only [versionValues, nextValues, List.mem_map, exists_exists_and_eq_and, Option.mem_toList, List.mem_singleton, Option.mem_def]
    constructor
    · rintro (⟨d, h1, h2⟩ | ⟨d, h1, h2⟩)
      · exact ⟨d, h1, .inr h2⟩
      · exact ⟨d, h1, .inl h2.symm⟩
    · rintro ⟨d, h1, h2 | h2⟩
      · exact .inr ⟨d, h1, h2.symm⟩
      · exact .inl ⟨d, h1, h2⟩

theorem sound_found {t : Int} (hs : SoundIndices t es) (v : Int) : (found es (.version v)).Perm (es.all.filter (fun d => d.inRange v)) := by
  refine found_perm hs.ok hs.fields ?_ hs.archived v
  rintro ⟨k, d⟩ hx
  cases k with
  | none => exact absurd (List.mem_map_of_mem hx) hs.ok.hasId
  | some i => exact (hs.latest i d (aget_of_mem hs.ok.nodup hx)).2

/-- Searches find the same at versions between which none is listed. -/
theorem sound_same {t : Int} (hs : SoundIndices t es) {vs : List Int}
    (hvs : ∀ v, v ∈ vs ↔ ∃ d ∈ es.all, d.version = v ∨ d.next = some v) {w v : Int} (hwv : w ≤ v) (hno : ∀ u ∈ vs, u ≤ v → u ≤ w) :
    (found es (.version w)).Perm (found es (.version v)) := by
  refine (sound_found hs w).trans (List.Perm.trans (.of_eq (List.filter_congr (fun d hd => ?_))) (sound_found hs v).symm)
  obtain ⟨f1, f2⟩ := hs.fields d hd
  rw [Bool.eq_iff_iff, inRange_iff, inRange_iff]
  have h1 := hno d.gte ((hvs _).2 ⟨d, hd, .inl f1⟩)
  unfold Doc.covers
  constructor
  · rintro ⟨g1, g2⟩
    refine ⟨by omega, fun e he => ?_⟩
    have h2 := hno e ((hvs _).2 ⟨d, hd, .inr (by rw [f2, he])⟩)
    have := g2 e he
    omega
  · rintro ⟨g1, g2⟩
    refine ⟨h1 g1, fun e he => ?_⟩
    have := g2 e he
    omega

end

/-- What C38 says of indices in which all documents say when they are valid. -/
theorem rounded_sound {es : ES (Option ParsedData)} {t : Int} (hs : SoundIndices t es) :
    ∃ vs, es.versions = some vs ∧ vs.Pairwise (· < ·) ∧ (∀ v, v ∈ vs ↔ ∃ d ∈ found es .all, d.gte = v ∨ d.lt = some v) ∧
      ∀ v, (es.roundedVersion v = some none ∧ (∀ w ∈ vs, v < w) ∧ found es (.version v) = []) ∨
        ∃ w, es.roundedVersion v = some (some w) ∧ w ∈ vs ∧ w ≤ v ∧ (∀ w' ∈ vs, w' ≤ v → w' ≤ w) ∧
          (found es (.version w)).Perm (found es (.version v)) ∧
          ∀ (Q : QueryEnv) (q : EsQuery), (es.searchFor Q (.version w) q).Perm (es.searchFor Q (.version v) q) := by
  obtain ⟨vs, k1, k2, k3⟩ := versions_docs es
  refine ⟨vs, k1, k2, fun v => ?_, fun v => ?_⟩
  · rw [k3]
    show _ ↔ ∃ d ∈ es.all, _
    refine exists_congr (fun d => and_congr_right (fun hd => ?_))
    rw [(hs.fields d hd).1, (hs.fields d hd).2]
  · rcases rounded_spec k1 k2 v with ⟨g1, g2⟩ | ⟨w, g1, g2, g3, g4⟩
    · refine .inl ⟨g2, g1, ?_⟩
      refine List.Perm.eq_nil ((sound_found hs v).trans (.of_eq ?_))
      refine List.filter_eq_nil_iff.2 (fun d hd => ?_)
      rw [inRange_iff]
      rintro ⟨h, _⟩
      have := g1 d.gte ((k3 _).2 ⟨d, hd, .inl (hs.fields d hd).1⟩)
      omega
    · have hp := sound_same hs k3 g3 g4
      exact .inr ⟨w, g1, g2, g3, g4, hp, fun Q q => hp.filter _⟩

/-- **C38** after any calls and syncs between them, with no condition on the records: the versions that are listed ascend and are those at which a
document of some version starts or stops to be valid; and searches at the version that `get_rounded_version(v)` gives find the same documents as
searches at `v`, with all queries, or nothing is found at `v` if it gives none. -/
theorem C38_always (E : ParseEnv) (U : Unicode) (maxDocs : Nat) (db : PyStr) (first : List ApiCall) (parts : List (List ApiCall))
    (ho : Orderly (first ++ parts.flatten)) (hv : ∃ v, IsVersion (afterCalls U db first) db v) :
    ∃ es vs, runSyncs (realParser E) maxDocs db [] (statesOf U db first parts) = .ok es ∧ es.versions = some vs ∧ vs.Pairwise (· < ·) ∧
      (∀ v, v ∈ vs ↔ ∃ d ∈ found es .all, d.gte = v ∨ d.lt = some v) ∧
      ∀ v, (es.roundedVersion v = some none ∧ (∀ w ∈ vs, v < w) ∧ found es (.version v) = []) ∨
        ∃ w, es.roundedVersion v = some (some w) ∧ w ∈ vs ∧ w ≤ v ∧ (∀ w' ∈ vs, w' ≤ v → w' ≤ w) ∧
          (found es (.version w)).Perm (found es (.version v)) ∧
          ∀ (Q : QueryEnv) (q : EsQuery), (es.searchFor Q (.version w) q).Perm (es.searchFor Q (.version v) q) := by
  have hms := life_dbOks parts first ho hv
  obtain ⟨es, h1, _⟩ := runSyncs_ok (realParser E) maxDocs _ [] hms latestOk_nil
  obtain ⟨t, hs⟩ := runSyncs_sound (realParser E) maxDocs _ [] es 0 hms (soundIndices_nil 0) h1
  obtain ⟨vs, h⟩ := rounded_sound hs
  exact ⟨es, vs, h1, h⟩

/-- **C80** for a record that has nothing uncommitted at the syncs, is not changed and then deleted between two syncs, and is not given equal values of
different types nor NaN, whatever happens to others: `get_versions()` lists all versions at which it appears, disappears or is read differently.
Missing: that no other versions are listed, and other records, see `C80_refuted`. -/
theorem C80_each_partial (E : ParseEnv) (hE : E.IgnoresOrder) (hS : E.ScalarHints) (hN : E.NumbersExist) (U : Unicode) (hU : U.Sane)
    (maxDocs : Nat) (db : PyStr) (first : List ApiCall) (parts : List (List ApiCall)) (ho : Orderly (first ++ parts.flatten))
    (hopt : ∀ o ∈ (first ++ parts.flatten).filterMap ApiCall.options?, OptionsOk o)
    (hv : ∃ v, IsVersion (afterCalls U db first) db v) :
    ∃ es vs, runSyncs (realParser E) maxDocs db [] (statesOf U db first parts) = .ok es ∧ es.versions = some vs ∧ vs.Pairwise (· < ·) ∧
      ∀ id, QuietRecord U db first parts id →
        (∀ r ∈ (first ++ parts.flatten).flatMap ApiCall.stream, r.id = id → (Value.dict (prepareRecordData U r)).noNaN = true) →
        ∀ v, ChangesAt E (ingested U db (first ++ parts.flatten) id).committed (optionsGiven U db (first ++ parts.flatten)).committed v →
          v ∈ vs := by
  obtain ⟨es, es0, h1, h0, h⟩ := C90_each E hE U hU maxDocs db first parts ho hv
  have hms := life_dbOks parts first ho hv
  obtain ⟨t, hs⟩ := runSyncs_sound (realParser E) maxDocs _ [] es 0 hms (soundIndices_nil 0) h1
  obtain ⟨vs, k1, k2, k3⟩ := versions_docs es
  obtain ⟨ms, hlast⟩ := statesOf_getLast U db parts first
  have hlm : afterCalls U db (first ++ parts.flatten) ∈ statesOf U db first parts := by rw [hlast]; simp
  have hm := hms _ hlm
  obtain ⟨es0', h0', h2, h3⟩ := C30_first_sync (realParser E) maxDocs db _ hm
  rw [h0] at h0'; cases h0'
  refine ⟨es, vs, h1, k1, k2, fun id hq hnan v hc => ?_⟩
  have hli := (life (K := fun i => (classFor id (placesOf U _ hq.noPuns id) i).named) (U := U) (db := db)
    (fun c hc => fits_classFor hU id hq.noPuns (fun r hr => List.mem_flatMap.2 ⟨c, hc, hr⟩)) ho).toLifeInv
  have hK : (classFor id (placesOf U _ hq.noPuns id) id).named = (strictClass (placesOf U _ hq.noPuns id)).named := by rw [classFor_self]
  have hp : (ingested U db (first ++ parts.flatten) id).pending = none := hli.noPendingOf (hq.noPending _ hlm)
  rw [← C79_indexed U db _ ho.clock hopt] at hc
  by_contra hno
  have hsame : (foundFor es0 (.version (v - 1)) id).Perm (foundFor es0 (.version v) id) := by
    rw [← (h id hq _).1, ← (h id hq _).1]
    refine List.Perm.filter _ (sound_same hs k3 (by omega) (fun u hu hle => ?_))
    have : u ≠ v := fun e => hno (e ▸ hu)
    omega
  have some_ : ∀ {w q}, ReadAt E (ingested U db (first ++ parts.flatten) id).committed
      (committedOptionsOf db (afterCalls U db (first ++ parts.flatten))) w (some q) →
      ∃ d p, foundFor es0 (.version w) id = [d] ∧ d.parsed = some p ∧ VR simScalarEq (.dict p.parsed) (.dict q.parsed) ∧
        pyEq (.dict q.parsed) (.dict q.parsed) = true ∧ p.dataTypes = q.dataTypes ∧ p.parsedTypes = q.parsedTypes := by
    rintro w q ⟨a, o, ha, hne, ho', hq'⟩
    obtain ⟨d, p, q1, _, _, _, g1, g2, _, _, g3, _, _, _, _, g4, g5, g6⟩ := hli.found_doc_at hE hS hm h2 h3 hK ha hne hp ho'
    rw [hq'] at g3; cases g3
    obtain ⟨u, hu, _⟩ := ha
    obtain ⟨r, hr, hid, e⟩ := ingested_from U db _ hu
    exact ⟨d, p, g1, g2, g4, pyEq_self _ g4.2.1 (noNaN_parse hN (by rw [show a = _ from e]; exact hnan r hr hid) hq'), g5, g6⟩
  have none_ : ∀ {w}, ReadAt E (ingested U db (first ++ parts.flatten) id).committed
      (committedOptionsOf db (afterCalls U db (first ++ parts.flatten))) w none → foundFor es0 (.version w) id = [] :=
    fun hr => hli.finds_nothing hm h2 h3 (.inl hr)
  rcases hc with ⟨r1, q, r2⟩ | ⟨⟨p, r1⟩, r2⟩ | ⟨p, q, r1, r2, hne⟩
  · obtain ⟨d, _, g, _⟩ := some_ r2
    rw [none_ r1, g] at hsame
    exact absurd hsame.length_eq (by simp)
  · obtain ⟨d, _, g, _⟩ := some_ r1
    rw [none_ r2, g] at hsame
    exact absurd hsame.length_eq (by simp)
  · obtain ⟨d, p', g1, g2, g3, g4, g5, g6⟩ := some_ r1
    obtain ⟨d', q', e1, e2, e3, e4, e5, e6⟩ := some_ r2
    rw [g1, e1] at hsame
    have : d = d' := by simpa using hsame
    subst this
    rw [g2] at e2; cases e2
    have j1 := pyEq_of_sim g3 g4
    have j2 := pyEq_of_sim e3 e4
    exact hne ⟨pyEq_trans (pyEq_symm g3.1 g3.2.1 j1) j2, by rw [← g5, e5], by rw [← g6, e6]⟩

set_option maxRecDepth 100000 in
/-- The calls of C90's example, where the conditions hold for `c`: it appears at 1 and changes at 3. These are the versions, and 7 is
rounded to 3. -/
example : (exBusy1 ++ exBusy2.flatten).filterMap ApiCall.options? = [] ∧
    (∀ r ∈ (exBusy1 ++ exBusy2.flatten).flatMap ApiCall.stream, r.id = ['c'] → (Value.dict (prepareRecordData asciiU r)).noNaN = true) ∧
    (match runSyncs (realParser exEnv') 10 ['x'] [] (statesOf asciiU ['x'] exBusy1 exBusy2) with
      | .ok es => decide (es.versions = some [1, 3] ∧ es.roundedVersion 7 = some (some 3) ∧ es.roundedVersion 0 = some none ∧
          (foundFor es (.version 2) ['c']).length = 1)
      | .error _ => false) = true := by
  refine ⟨by decide, by decide +kernel, by decide +kernel⟩

end Splitgill.Props
