import Verif.Proof.Search3
import Verif.Props.Life
/-!
# C36-C39, C51, C56: searching

The indices are any that hold the documents of the records `rs` of a database (`IndexesRecords`), which is what syncs
make (C30, C31, C35; for calls of the API see `C36_api_partial`). `found es (.version v)` are the documents that
`search(v)` finds.
-/

namespace Splitgill.Props
open Splitgill

/-! ## C36 -/

/-- C36 in full: after a sync `search(v)` finds for every record that exists at `v` one document, with the parse of its
data as of `v` with the options as of `v`; and none for other records. -/
def C36_full : Prop :=
  ∀ (P : Type) (X : Parser P) (maxDocs : Nat) (db : PyStr) (m : Mongo) (es : ES P), DbOk db m → NoPending db m →
    sync X maxDocs db false m [] = .ok es → ∀ r ∈ m.data db, ∀ v,
      (∀ a o, AsOf (histOf (m.data db) r.id) v a → a ≠ [] → OptionsAsOf (committedOptionsOf db m) v o →
        ∃ d, foundFor es (.version v) r.id = [d] ∧ X.same d.parsed (X.parse a o)) ∧
      (¬ Alive (histOf (m.data db) r.id) v → foundFor es (.version v) r.id = [])

/-- Options at 1 and 2, then a record at 3. -/
def exLateRecord : List ApiCall :=
  [.updateOptions (exOpts 10) true 1, .updateOptions (exOpts 20) true 2, .ingest none [exRec ['a'] 1] true 3]

set_option maxRecDepth 100000 in
/-- **C36 does not hold in full**: a record made after two versions of the options is parsed with the first of
them (see C29). -/
theorem C36_refuted : ¬ C36_full := by
  intro h
  have hs : sync exParser 10 ['x'] false (exDbOf exLateRecord) [] = .ok (exSynced exLateRecord) := rfl
  obtain ⟨r, hr, hid⟩ : ∃ r ∈ (exDbOf exLateRecord).data ['x'], r.id = ['a'] :=
    ⟨((exDbOf exLateRecord).data ['x']).head (by decide), by decide, by decide⟩
  have hp : ∀ r ∈ (exDbOf exLateRecord).data ['x'], r.version ≠ none := by decide
  obtain ⟨d, h1, h2⟩ := (h _ exParser 10 ['x'] (exDbOf exLateRecord) _ (dbOk_of_check (by decide)) hp hs r hr 3).1
    (exData ['a'] 1) (exOpts 20) (by
      rw [hid]
      have e : histOf ((exDbOf exLateRecord).data ['x']) ['a'] = [(3, exData ['a'] 1)] := by decide
      rw [e]
      exact ⟨3, by simp, by simp, by simp⟩) (by decide) (.inl (by
      have e : committedOptionsOf ['x'] (exDbOf exLateRecord) = [(1, exOpts 10), (2, exOpts 20)] := by decide
      rw [e]
      refine ⟨2, by simp, by simp, ?_⟩
      intro w y hm _
      simp only [List.mem_cons, Prod.mk.injEq, List.not_mem_nil, or_false] at hm
      omega))
  have e : foundFor (exSynced exLateRecord) (.version 3) ['a'] =
      [⟨['a'], 3, 3, none, none, (exData ['a'] 1, exOpts 10)⟩] := by decide
  rw [hid, e] at h1
  cases h1
  rcases h2 with h2 | h2
  · exact absurd h2 (by decide)
  · exact absurd h2 (by decide)

/-- **C36**, with the options that the code uses for the record (`effectiveOptions`) in place of all options:
`search(v)` finds, for each record that exists at `v`, exactly one document, the parse of its data and the
options as of `v`, and nothing else. -/
theorem C36_search_partial {P : Type} (X : Parser P) (db : PyStr) (m : Mongo) (rs : List MongoRecord) (es : ES P)
    (hm : DbOk db m) (hrs : rs.Sublist (m.data db)) (hok : LatestOk es) (h : IndexesRecords X db m rs es) (v : Int) :
    (∀ r ∈ rs, ∀ a o, AsOf (histOf (m.data db) r.id) v a → a ≠ [] →
      OptionsAsOf (effectiveOptions (histOf (m.data db) r.id) (committedOptionsOf db m)) v o →
      ∃ d, foundFor es (.version v) r.id = [d] ∧ X.same d.parsed (X.parse a o)) ∧
    (∀ r ∈ rs, ¬ Alive (histOf (m.data db) r.id) v → foundFor es (.version v) r.id = []) ∧
    (∀ d ∈ found es (.version v), ∃ r ∈ rs, d.id = r.id) := by
  obtain ⟨D, hD, h1, h2⟩ := h.indexed hm hrs hok
  refine ⟨fun r hr a o ha hne ho => ?_, fun r hr hna => ?_, fun d hd => ?_⟩
  · have hh : histOf (m.data db) r.id ≠ [] := by
      obtain ⟨w, hw, _⟩ := ha
      intro he; rw [he] at hw; cases hw
    obtain ⟨d, hd, hc⟩ := ((h1 r hr hh).covered v).2 ⟨a, ha, hne⟩
    exact ⟨d, hD.foundFor_some hr hd hc, (h1 r hr hh).content v d hd hc a o ha ho⟩
  · refine hD.foundFor_none hr (fun d hd hc => ?_)
    by_cases hh : histOf (m.data db) r.id = []
    · rw [h2 r hr hh] at hd; cases hd
    · exact hna (((h1 r hr hh).covered v).1 ⟨d, hd, hc⟩)
  · have := (hD.found v).mem_iff.1 hd
    obtain ⟨r, hr, hd⟩ := hD.mem_all.1 (List.mem_filter.1 this).1
    exact ⟨r, hr, (hD.fields r hr d hd).1⟩

/-- **C36**, for records before which the options have not been changed more than once. Missing: see
`C36_refuted`. -/
theorem C36_options_partial {P : Type} (X : Parser P) (db : PyStr) (m : Mongo) (rs : List MongoRecord) (es : ES P)
    (hm : DbOk db m) (hrs : rs.Sublist (m.data db)) (hok : LatestOk es) (h : IndexesRecords X db m rs es)
    (hopt : ∀ r ∈ rs, OptionsNotChangedBefore (histOf (m.data db) r.id) (committedOptionsOf db m)) (v : Int) :
    (∀ r ∈ rs, ∀ a o, AsOf (histOf (m.data db) r.id) v a → a ≠ [] → OptionsAsOf (committedOptionsOf db m) v o →
      ∃ d, foundFor es (.version v) r.id = [d] ∧ X.same d.parsed (X.parse a o)) ∧
    (∀ r ∈ rs, ¬ Alive (histOf (m.data db) r.id) v → foundFor es (.version v) r.id = []) ∧
    (∀ d ∈ found es (.version v), ∃ r ∈ rs, d.id = r.id) := by
  have := C36_search_partial X db m rs es hm hrs hok h v
  refine ⟨fun r hr a o ha hne ho => this.1 r hr a o ha hne ?_, this.2⟩
  rw [effectiveOptions_self (hopt r hr)]; exact ho

/-- **C36**, the latest search: the current data of every record that is not deleted. -/
theorem C36_latest_partial {P : Type} (X : Parser P) (db : PyStr) (m : Mongo) (rs : List MongoRecord) (es : ES P)
    (hm : DbOk db m) (hrs : rs.Sublist (m.data db)) (hok : LatestOk es) (h : IndexesRecords X db m rs es) :
    (∀ r ∈ rs, ∀ a o, Newest (histOf (m.data db) r.id) a → a ≠ [] →
      Newest (effectiveOptions (histOf (m.data db) r.id) (committedOptionsOf db m)) o →
      ∃ d, foundFor es .latest r.id = [d] ∧ X.same d.parsed (X.parse a o)) ∧
    (∀ r ∈ rs, (∀ a, Newest (histOf (m.data db) r.id) a → a = []) → foundFor es .latest r.id = []) ∧
    (∀ d ∈ found es .latest, ∃ r ∈ rs, d.id = r.id) := by
  obtain ⟨D, hD, _, _⟩ := h.indexed hm hrs hok
  obtain ⟨b, hb⟩ := hD.found_latest
  have hlat : ∀ v, b ≤ v → ∀ id, foundFor es .latest id = foundFor es (.version v) id := by
    intro v hv id; unfold foundFor; rw [hb v hv]
  refine ⟨fun r hr a o ha hne ho => ?_, fun r hr hdel => ?_, ?_⟩
  · obtain ⟨b1, hb1⟩ := exists_bound ((histOf (m.data db) r.id).map Prod.fst ++
      (effectiveOptions (histOf (m.data db) r.id) (committedOptionsOf db m)).map Prod.fst)
    rw [hlat (max b b1) (by omega)]
    refine (C36_search_partial X db m rs es hm hrs hok h (max b b1)).1 r hr a o (ha.asOf fun w hw => ?_) hne
      (.inl (ho.asOf fun w hw => ?_))
    · have := hb1 w (List.mem_append_left _ hw); omega
    · have := hb1 w (List.mem_append_right _ hw); omega
  · obtain ⟨b1, hb1⟩ := exists_bound ((histOf (m.data db) r.id).map Prod.fst)
    rw [hlat (max b b1) (by omega)]
    refine (C36_search_partial X db m rs es hm hrs hok h (max b b1)).2.1 r hr ?_
    rintro ⟨d, ⟨w, h1, h2, h3⟩, hne⟩
    refine hne (hdel d ⟨w, h1, fun w' y hy => h3 w' y hy ?_⟩)
    have := hb1 w' (List.mem_map_of_mem hy); omega
  · have := (C36_search_partial X db m rs es hm hrs hok h b).2.2
    rw [hb b (Int.le_refl _)] at this
    exact this

set_option maxRecDepth 100000 in
/-- The hypotheses hold of two records, one changed and one deleted, and new options; and what the searches find. -/
example : ∃ es, DbOk ['x'] (exDbOf exCalls2) ∧ ((exDbOf exCalls2).data ['x']).filter (fun r => r.version.isSome) =
      (exDbOf exCalls2).data ['x'] ∧ LatestOk es ∧
    IndexesRecords exParser ['x'] (exDbOf exCalls2) ((exDbOf exCalls2).data ['x']) es ∧
    (∀ r ∈ (exDbOf exCalls2).data ['x'], OptionsNotChangedBefore (histOf ((exDbOf exCalls2).data ['x']) r.id)
      (committedOptionsOf ['x'] (exDbOf exCalls2))) ∧
    [0, 1, 2, 3, 4, 9].map (fun v => (found es (.version v)).map (fun d => (d.id, d.gte))) =
      [[], [(['a'], 1), (['b'], 1)], [(['a'], 2), (['b'], 1)], [(['a'], 2)], [(['a'], 4)], [(['a'], 4)]] := by
  have hm : DbOk ['x'] (exDbOf exCalls2) := dbOk_of_check (by decide)
  obtain ⟨es, h1, h2, h3⟩ := C30_first_sync exParser 10 ['x'] _ hm
  have e : ((exDbOf exCalls2).data ['x']).filter (fun r => r.version.isSome) = (exDbOf exCalls2).data ['x'] := by decide
  rw [e] at h3
  have hs : sync exParser 10 ['x'] false (exDbOf exCalls2) [] = .ok (exSynced exCalls2) := rfl
  rw [hs] at h1; cases h1
  refine ⟨_, hm, e, h2, h3, ?_, by decide⟩
  have ho : (committedOptionsOf ['x'] (exDbOf exCalls2)).map Prod.fst = [1, 4] := by decide
  have hh : ∀ r ∈ (exDbOf exCalls2).data ['x'], 1 ∈ (histOf ((exDbOf exCalls2).data ['x']) r.id).map Prod.fst := by decide
  intro r hr w w' hw hw' hlt
  rw [ho] at hw hw'
  have := hlt 1 (hh r hr)
  simp at hw hw'
  omega

/-- **C36** for the API: any calls, with syncs between them, no record changed and then deleted between two syncs
and nothing uncommitted at the syncs. Missing: such records (`C31_refuted`), and see `C36_refuted`. -/
theorem C36_api_partial {P : Type} (X : Parser P) (hX : X.Respects) (maxDocs : Nat) (U : Unicode) (db : PyStr)
    (first : List ApiCall) (parts : List (List ApiCall)) (ho : Orderly (first ++ parts.flatten))
    (hv : ∃ v, IsVersion (afterCalls U db first) db v) (he : EachPart (NoUpdateDelete db) U db first parts)
    (hp : ∀ m ∈ statesOf U db first parts, NoPending db m) :
    ∃ es, runSyncs X maxDocs db [] (statesOf U db first parts) = .ok es ∧
      ∀ v, (∀ id a o, AsOf (histOf ((afterCalls U db (first ++ parts.flatten)).data db) id) v a → a ≠ [] →
          OptionsAsOf (effectiveOptions (histOf ((afterCalls U db (first ++ parts.flatten)).data db) id)
            (committedOptionsOf db (afterCalls U db (first ++ parts.flatten)))) v o →
          ∃ d, foundFor es (.version v) id = [d] ∧ X.same d.parsed (X.parse a o)) ∧
        (∀ id, ¬ Alive (histOf ((afterCalls U db (first ++ parts.flatten)).data db) id) v →
          foundFor es (.version v) id = []) := by
  obtain ⟨es, es0, h1, _, _, h2, h3⟩ := C31_api_partial X hX maxDocs U db first parts ho hv he hp
  obtain ⟨ms, hms⟩ := statesOf_getLast U db parts first
  have ht := life_timeline hX.plain parts first (fun c _ => fits_plain U c.stream) ho hv he
  have hm := ht.dbOk _ (by rw [hms]; simp : afterCalls U db (first ++ parts.flatten) ∈ statesOf U db first parts)
  refine ⟨es, h1, fun v => ?_⟩
  obtain ⟨g1, g2, g3⟩ := C36_search_partial X db _ _ es hm (List.Sublist.refl _) h2 h3 v
  refine ⟨fun id a o ha hne ho => ?_, fun id hna => ?_⟩
  · have hid : id ∈ ((afterCalls U db (first ++ parts.flatten)).data db).map MongoRecord.id := by
      refine mem_ids_of_hist (fun hnil => ?_)
      obtain ⟨w, hw, _⟩ := ha
      rw [hnil] at hw; cases hw
    obtain ⟨r, hr, rfl⟩ := List.mem_map.1 hid
    exact g1 r hr a o ha hne ho
  · by_cases hid : id ∈ ((afterCalls U db (first ++ parts.flatten)).data db).map MongoRecord.id
    · obtain ⟨r, hr, rfl⟩ := List.mem_map.1 hid
      exact g2 r hr hna
    · unfold foundFor
      rw [List.filter_eq_nil_iff]
      intro d hd
      obtain ⟨r, hr, e⟩ := g3 d hd
      simp only [decide_eq_true_eq]
      rintro rfl
      exact hid (by rw [e]; exact List.mem_map_of_mem hr)

/-! ## C37 -/

/-- **C37** searching the latest index without a filter (which `search(v)` does from the newest indexed version on)
finds the documents of all indices that cover the version, and `search(v)` does so for every `v`. -/
theorem C37_latest_shortcut {P : Type} (X : Parser P) (db : PyStr) (m : Mongo) (rs : List MongoRecord) (es : ES P)
    (hm : DbOk db m) (hrs : rs.Sublist (m.data db)) (hok : LatestOk es) (h : IndexesRecords X db m rs es) :
    (∀ v newest, es.version = some newest → newest ≤ v →
      ((⟨.latest, none⟩ : Search).run es).Perm ((⟨.wildcard, some v⟩ : Search).run es)) ∧
    ∀ v, (found es (.version v)).Perm ((⟨.wildcard, some v⟩ : Search).run es) := by
  obtain ⟨D, hD, _, _⟩ := h.indexed hm hrs hok
  refine ⟨fun v newest hv hle => ?_, hD.found⟩
  have := hD.found v
  unfold found ES.search at this
  rw [hv] at this
  dsimp only at this
  rw [if_pos hle] at this
  exact this

/-! ## C38 -/

/-- **C38** `get_versions()` is strictly ascending and has exactly the versions at which what `search` shows of
some record changes; `get_rounded_version(v)` is the greatest of them not above `v` and finds the same documents,
or `None` if there is none, and then `search(v)` finds nothing. -/
theorem C38_versions {P : Type} (X : Parser P) (db : PyStr) (m : Mongo) (rs : List MongoRecord) (es : ES P)
    (hrefl : ∀ d ∈ es.all, X.eq d.parsed d.parsed = true) (hm : DbOk db m) (hrs : rs.Sublist (m.data db)) (hok : LatestOk es)
    (h : IndexesRecords X db m rs es) :
    ∃ vs, es.versions = some vs ∧ vs.Pairwise (· < ·) ∧
      (∀ v, v ∈ vs ↔ ∃ r ∈ rs, changedAt X es v r.id = true) ∧
      ∀ v, (es.roundedVersion v = some none ∧ (∀ w ∈ vs, v < w) ∧ found es (.version v) = []) ∨
        ∃ w, es.roundedVersion v = some (some w) ∧ w ∈ vs ∧ w ≤ v ∧ (∀ w' ∈ vs, w' ≤ v → w' ≤ w) ∧
          (found es (.version w)).Perm (found es (.version v)) := by
  obtain ⟨D, hD, _, _⟩ := h.indexed hm hrs hok
  obtain ⟨vs, h1, h2, h3⟩ := hD.versions
  refine ⟨vs, h1, h2, fun v => ?_, fun v => ?_⟩
  · rw [h3]
    constructor
    · rintro ⟨r, hr, hx⟩; exact ⟨r, hr, (hD.changedAt_iff hrefl hr v).2 hx⟩
    · rintro ⟨r, hr, hx⟩; exact ⟨r, hr, (hD.changedAt_iff hrefl hr v).1 hx⟩
  · rcases rounded_spec h1 h2 v with ⟨hlt, e⟩ | ⟨w, e, hw, hle, hmax⟩
    · refine .inl ⟨e, hlt, hD.found_nil fun r hr d hd => hlt _ ((h3 _).2 ⟨r, hr, .inl ⟨d, hd, rfl⟩⟩)⟩
    · refine .inr ⟨w, e, hw, hle, hmax, hD.found_same hle fun r hr d hd u hu huv => hmax u ((h3 u).2 ⟨r, hr, ?_⟩) huv⟩
      rcases hu with hu | hu
      · exact .inl ⟨d, hd, hu⟩
      · exact .inr ⟨d, hd, hu⟩

set_option maxRecDepth 100000 in
/-- The versions of the example, with version 3 that only deletes a record. -/
example : (exSynced exCalls2).versions = some [1, 2, 3, 4] ∧
    [0, 1, 3, 9].map (exSynced exCalls2).roundedVersion = [some none, some (some 1), some (some 3), some (some 4)] ∧
    [['a'], ['b']].map (fun id => [0, 1, 2, 3, 4, 5].map (fun v => changedAt exParser (exSynced exCalls2) v id)) =
      [[false, true, true, false, true, false], [false, true, false, true, false, false]] := by decide

/-! ## C39 -/

/-- C39 in full: `get_version_changed_counts()` has for each version the number of records that changed. -/
def C39_full : Prop :=
  ∀ (P : Type) (X : Parser P) (db : PyStr) (m : Mongo) (rs : List MongoRecord) (es : ES P), (∀ d ∈ es.all, X.eq d.parsed d.parsed = true) →
    DbOk db m → rs.Sublist (m.data db) → LatestOk es → IndexesRecords X db m rs es →
    ∃ c, es.changedCounts = some c ∧ ∀ v n, aget v c = some n → n = rs.countP (fun r => changedAt X es v r.id)

/-- `a` at 1; then `a` changed and `b` new at 2. -/
def exAddChange : List ApiCall :=
  [.ingest none [exRec ['a'] 1] true 1, .ingest none [exRec ['a'] 2, exRec ['b'] 1] true 2]

/-- `exParser` with an equality that is that of the model. -/
def exParserEq : Parser (Dict × ParsingOptions) where
  parse d o := (d, o)
  eq p q := decide (p = q)

/-- The indices of a database with `exParserEq`. -/
def exSyncedEq (calls : List ApiCall) : ES (Dict × ParsingOptions) :=
  match sync exParserEq 10 ['x'] false (exDbOf calls) [] with
  | .ok es => es
  | .error _ => []

set_option maxRecDepth 100000 in
/-- **C39 does not hold in full**: two records change at 2, but the count is 1: the counts of replaced documents
overwrite those of new documents. -/
theorem C39_refuted : ¬ C39_full := by
  intro h
  have hm : DbOk ['x'] (exDbOf exAddChange) := dbOk_of_check (by decide)
  obtain ⟨es, h1, h2, h3⟩ := C30_first_sync exParserEq 10 ['x'] _ hm
  have hs : sync exParserEq 10 ['x'] false (exDbOf exAddChange) [] = .ok (exSyncedEq exAddChange) := rfl
  rw [hs] at h1; cases h1
  obtain ⟨c, h4, h5⟩ := h _ exParserEq ['x'] _ _ _ (by simp [exParserEq]) hm List.filter_sublist h2 h3
  have e : (exSyncedEq exAddChange).changedCounts = some [(1, 1), (2, 1)] := by decide
  rw [e] at h4; cases h4
  exact absurd (h5 2 1 rfl) (by decide)

/-- **C39**, what holds: the count of `v` is the number of records that changed at `v` if none of them, or all of them,
were added; otherwise it is the number of those not added. Missing: the added records then, see
`C39_refuted`. -/
theorem C39_counts_partial {P : Type} (X : Parser P) (db : PyStr) (m : Mongo) (rs : List MongoRecord) (es : ES P)
    (hrefl : ∀ d ∈ es.all, X.eq d.parsed d.parsed = true) (hm : DbOk db m) (hrs : rs.Sublist (m.data db)) (hok : LatestOk es)
    (h : IndexesRecords X db m rs es) :
    ∃ c, es.changedCounts = some c ∧ (akeys c).Nodup ∧ ∀ v,
      (aget v c = none ↔ ∀ r ∈ rs, changedAt X es v r.id = false) ∧
      ∀ n, aget v c = some n →
        (((∀ r ∈ rs, addedAt es v r.id = false) ∨ (∀ r ∈ rs, changedAt X es v r.id = true → addedAt es v r.id = true)) →
          n = rs.countP (fun r => changedAt X es v r.id)) ∧
        ((∃ r ∈ rs, changedAt X es v r.id = true ∧ addedAt es v r.id = false) →
          n = rs.countP (fun r => changedAt X es v r.id && !addedAt es v r.id)) := by
  obtain ⟨D, hD, _, _⟩ := h.indexed hm hrs hok
  obtain ⟨c, h1, h2, h3⟩ := hD.counts hrefl
  refine ⟨c, h1, h2, fun v => ?_⟩
  have hcnt := hD.count_changed hrefl v
  have hsub : ∀ r ∈ rs, addedAt es v r.id = true → changedAt X es v r.id = true := by
    intro r hr ha
    exact (hD.changedAt_iff hrefl hr v).2 (.inl ((hD.addedAt_iff hr v).1 ha).1)
  have hsplit : rs.countP (fun r => changedAt X es v r.id) =
      rs.countP (fun r => addedAt es v r.id) + rs.countP (fun r => changedAt X es v r.id && !addedAt es v r.id) := by
    rw [← countP_or]
    refine List.countP_congr (fun r hr => ?_)
    rw [Bool.or_eq_true]
    exact ⟨.inl, fun h => h.elim id (hsub r hr)⟩
  rw [h3 v]
  constructor
  · by_cases h0 : rs.countP (fun r => changedAt X es v r.id) = 0
    · rw [if_pos h0]
      simp only [true_iff]
      intro r hr
      simpa using List.countP_eq_zero.1 h0 r hr
    · rw [if_neg h0]
      constructor
      · intro hx; split at hx <;> cases hx
      · intro hx
        exact absurd (List.countP_eq_zero.2 (fun r hr => by simp [hx r hr])) h0
  · intro n hn
    by_cases h0 : rs.countP (fun r => changedAt X es v r.id) = 0
    · rw [if_pos h0] at hn; cases hn
    · rw [if_neg h0] at hn
      constructor
      · rintro (hx | hx)
        · have e0 : rs.countP (fun r => addedAt es v r.id) = 0 := List.countP_eq_zero.2 (fun r hr => by simp [hx r hr])
          rw [e0, if_neg h0] at hn
          cases hn; rfl
        · have e0 : rs.countP (fun r => changedAt X es v r.id && !addedAt es v r.id) = 0 :=
            List.countP_eq_zero.2 (fun r hr => by
              simp only [Bool.and_eq_true, Bool.not_eq_true', not_and, Bool.not_eq_false]
              exact hx r hr)
          rw [if_pos (by omega)] at hn
          cases hn; omega
      · rintro ⟨r, hr, hc, ha⟩
        have hpos : 0 < rs.countP (fun r => changedAt X es v r.id && !addedAt es v r.id) :=
          List.countP_pos_iff.2 ⟨r, hr, by simp [hc, ha]⟩
        rw [if_neg (by omega)] at hn
        cases hn; omega

set_option maxRecDepth 100000 in
example : (exSyncedEq exCalls2).changedCounts = some [(1, 2), (2, 1), (4, 1), (3, 1)] ∧ (∀ p, exParserEq.eq p p = true) :=
  ⟨by decide, by simp [exParserEq]⟩

/-! ## C51 -/

/-- **C51** the filter matches a document of an index in the map exactly if the range of the document has the version given
for the index. -/
theorem C51_index_filter {P : Type} (m : List (PyStr × Int)) (hm : (m.map Prod.fst).Nodup) (i : PyStr) (v : Int)
    (hi : (i, v) ∈ m) (d : Doc P) : (indexSpecificVersionFilter m).matches i d = true ↔ d.covers v := by
  obtain ⟨h1, h2⟩ := groupByVersion_spec m [] (by simp)
  have hg : ∀ w j, (∃ is, (w, is) ∈ groupByVersion m ∧ j ∈ is) ↔ (j, w) ∈ m := by
    intro w j
    have := h2 w j
    simp only [aget_nil, reduceCtorEq, false_and, exists_false, or_false] at this
    rw [← this]
    constructor
    · rintro ⟨is, hx, hj⟩; exact ⟨is, aget_of_mem h1 hx, hj⟩
    · rintro ⟨is, hx, hj⟩; exact ⟨is, aget_mem hx, hj⟩
  have huniq : ∀ w, (i, w) ∈ m → w = v := by
    intro w hw
    have e1 := aget_of_mem hm hw
    have e2 := aget_of_mem hm hi
    rw [e1] at e2
    exact Option.some.inj e2
  have hmany : (VQuery.anyOf ((groupByVersion m).map (fun g =>
      match g.2 with
      | [i] => VQuery.both (.indexTerm i) (.version g.1)
      | is => .both (.indexTerms is) (.version g.1)))).matches i d = true ↔ d.covers v := by
    have hone : ∀ g : Int × List PyStr, (match g.2 with
      | [i] => VQuery.both (.indexTerm i) (.version g.1)
      | is => .both (.indexTerms is) (.version g.1)).matches i d = true ↔ i ∈ g.2 ∧ d.covers g.1 := by
      rintro ⟨w, is⟩
      dsimp only
      split <;> simp [VQuery.matches, inRange_iff]
    rw [anyOf_matches (by
      obtain ⟨is, hgm, _⟩ := (hg v i).2 hi
      exact fun e => List.ne_nil_of_mem hgm (List.map_eq_nil_iff.1 e))]
    constructor
    · rintro ⟨q, hq, hmq⟩
      obtain ⟨⟨w, is⟩, hgm, rfl⟩ := List.mem_map.1 hq
      obtain ⟨hi', hc⟩ := (hone _).1 hmq
      have := huniq w ((hg w i).1 ⟨is, hgm, hi'⟩)
      subst this
      exact hc
    · intro hc
      obtain ⟨is, hgm, hi'⟩ := (hg v i).2 hi
      exact ⟨_, List.mem_map.2 ⟨_, hgm, rfl⟩, (hone _).2 ⟨hi', hc⟩⟩
  unfold indexSpecificVersionFilter
  split
  · rename_i w is e
    obtain ⟨js, hgm, _⟩ := (hg v i).2 hi
    rw [e, List.mem_singleton] at hgm
    cases hgm
    rw [VQuery.matches, inRange_iff]
  · exact hmany

/-- **C51**, the documents of other indices: a map that gives two versions matches none of them, a map that gives one version matches
those whose range has it. -/
theorem C51_other_indices {P : Type} (m : List (PyStr × Int)) (i : PyStr) (hi : i ∉ m.map Prod.fst) (d : Doc P) :
    ((∃ a ∈ m, ∃ b ∈ m, a.2 ≠ b.2) → (indexSpecificVersionFilter m).matches i d = false) ∧
    (∀ v, m ≠ [] → (∀ a ∈ m, a.2 = v) → ((indexSpecificVersionFilter m).matches i d = true ↔ d.covers v)) ∧
    (m = [] → (indexSpecificVersionFilter m).matches i d = true) := by
  obtain ⟨h1, h2⟩ := groupByVersion_spec m [] (by simp)
  have hg : ∀ w j, (∃ is, (w, is) ∈ groupByVersion m ∧ j ∈ is) ↔ (j, w) ∈ m := by
    intro w j
    have := h2 w j
    simp only [aget_nil, reduceCtorEq, false_and, exists_false, or_false] at this
    rw [← this]
    constructor
    · rintro ⟨is, hx, hj⟩; exact ⟨is, aget_of_mem h1 hx, hj⟩
    · rintro ⟨is, hx, hj⟩; exact ⟨is, aget_mem hx, hj⟩
  refine ⟨?_, ?_, ?_⟩
  · rintro ⟨⟨j, v⟩, ha, ⟨k, w⟩, hb, hne⟩
    obtain ⟨is, hx, _⟩ := (hg v j).2 ha
    obtain ⟨js, hy, _⟩ := (hg w k).2 hb
    unfold indexSpecificVersionFilter
    split
    · rename_i e
      rw [e, List.mem_singleton] at hx hy
      cases hx; cases hy
      exact absurd rfl hne
    · rw [← Bool.not_eq_true, anyOf_matches (fun e => List.ne_nil_of_mem hx (List.map_eq_nil_iff.1 e))]
      rintro ⟨q, hq, hmq⟩
      obtain ⟨⟨u, ks⟩, hgm, rfl⟩ := List.mem_map.1 hq
      have hik : i ∈ ks := by
        dsimp only at hmq
        split at hmq <;> simp [VQuery.matches] at hmq ⊢ <;> exact hmq.1
      exact hi (List.mem_map.2 ⟨_, (hg u i).1 ⟨ks, hgm, hik⟩, rfl⟩)
  · intro v hm hv
    have : groupByVersion m = [(v, m.map Prod.fst)] := by
      cases m with
      | nil => exact absurd rfl hm
      | cons a m =>
        unfold groupByVersion
        rw [List.foldl_cons]
        have e : aset a.2 ((aget a.2 ([] : List (Int × List PyStr))).getD [] ++ [a.1]) [] = [(v, [a.1])] := by
          rw [hv a List.mem_cons_self]; rfl
        rw [e, groupByVersion_one m _ (fun b hb => hv b (List.mem_cons_of_mem _ hb))]
        rfl
    unfold indexSpecificVersionFilter
    rw [this]
    dsimp only
    rw [VQuery.matches, inRange_iff]
  · rintro rfl
    rfl

/-- A document of an index that is not in the map, with two versions and with one. -/
example : (['z'] : PyStr) ∉ ([(['a'], (1 : Int)), (['b'], 2)] : List (PyStr × Int)).map Prod.fst ∧
    ([[(['a'], 1), (['b'], 2)], [(['a'], 1), (['b'], 1)], []] : List (List (PyStr × Int))).map (fun m =>
      (indexSpecificVersionFilter m).matches ['z'] (⟨['r'], 1, 1, none, none, ()⟩ : Doc Unit)) = [false, true, true] := by decide

/-- Three indices, two of them at the same version. -/
example : ([(['a'], 1), (['b'], 2), (['c'], 1)].map Prod.fst : List PyStr).Nodup ∧
    [(['a'], 1, (3 : Int)), (['b'], 1, 3), (['b'], 1, 2), (['c'], 1, 2), (['c'], 2, 4)].map (fun x =>
      (indexSpecificVersionFilter [(['a'], 1), (['b'], 2), (['c'], 1)]).matches x.1
        (⟨['r'], x.2.1, x.2.1, some x.2.2, some x.2.2, ()⟩ : Doc Unit)) = [true, true, false, true, false] := by decide

/-! ## C56 -/

/-- **C56** for any documents and any chunk size of at least one, `iter_terms` ends, after at most one request more than
there are values, and yields each value of the field exactly once, with the number of documents that have it. -/
theorem C56_iter_terms {α : Type} [LinearOrder α] (docs : List (List α)) (size : Nat) (hsize : 1 ≤ size) :
    ∃ terms, iterTerms docs size = some terms ∧
      (∀ n, terms.length < n → iterTermsN docs size n none = some terms) ∧
      (terms.map Prod.fst).Nodup ∧
      ∀ a n, (a, n) ∈ terms ↔ (∃ d ∈ docs, a ∈ d) ∧ n = docs.countP (fun d => decide (a ∈ d)) := by
  refine ⟨buckets docs, iterTerms_eq docs hsize, fun n hn => ?_, ?_, fun a n => mem_buckets⟩
  · have := iterTermsN_eq docs hsize n none (by rw [bucketsAfter_none]; exact hn)
    rwa [bucketsAfter_none] at this
  · exact (List.pairwise_map.2 (buckets_sorted docs)).imp ne_of_lt

/-- Five documents, two requests with results and one without. -/
example : iterTerms [[3], [1], [], [3, 2], [3, 1]] 2 = some [((1 : Int), 2), (2, 1), (3, 3)] := by decide

/-- The terms come in the order of the values, not (as the docstring says) in descending order of frequency. -/
theorem C56_order_refuted : ¬ ∀ (docs : List (List Int)) (size : Nat) (terms : List (Int × Nat)), 1 ≤ size →
    iterTerms docs size = some terms → terms.Pairwise (fun a b => b.2 ≤ a.2) := by
  intro h
  exact absurd (h [[2], [2], [1]] 10 [(1, 1), (2, 2)] (by decide) (by decide)) (by decide)

end Splitgill.Props
