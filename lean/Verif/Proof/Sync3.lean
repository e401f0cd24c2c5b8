import Verif.Proof.Sync2
import Verif.Proof.Index3
/-!
# Lemmas: one sync
-/

namespace Splitgill

section
variable {P : Type} {X : Parser P} {db : PyStr} {m : Mongo}

/-- The documents of a record of the database. -/
def dbDocs (X : Parser P) (db : PyStr) (m : Mongo) (r : MongoRecord) : List (Doc P) :=
  recDocs X (committedOptionsOf db m) (m.data db) r.id

theorem DbOk.hist_of (h : DbOk db m) {r : MongoRecord} (hr : r ∈ m.data db) {items} (hi : r.iter = .ok items) :
    histOf (m.data db) r.id = committedOf items := by
  simp only [histOf, history, findRecord_of_mem h.nodup hr, hi]

theorem hist_none {id : PyStr} (hid : id ∉ (m.data db).map MongoRecord.id) : histOf (m.data db) id = [] := by
  have : findRecord id (m.data db) = none := findRecord_none.2 hid
  simp only [histOf, history, this]
  rfl

/-- The newest version of a record without uncommitted changes is that of its document. -/
theorem DbOk.head (h : DbOk db m) {r : MongoRecord} (hr : r ∈ m.data db) {v : Int} (hv : r.version = some v) :
    r.iter = .ok ((histOf (m.data db) r.id).map (fun vd => (some vd.1, vd.2))) ∧
    ∃ d, (histOf (m.data db) r.id).head? = some (v, d) := by
  obtain ⟨items, hi, hc⟩ := h.reads r hr
  obtain ⟨h1, h2⟩ := hc v hv
  rw [h.hist_of hr hi]
  exact ⟨by rw [hi, ← h1], h2⟩

theorem DbOk.key_le (h : DbOk db m) {r : MongoRecord} (hr : r ∈ m.data db) {v : Int} (hv : r.version = some v)
    {w : Int} (hw : w ∈ akeys (histOf (m.data db) r.id)) : w ≤ v := by
  obtain ⟨_, d, hd⟩ := h.head hr hv
  have hp := h.desc r.id
  generalize histOf (m.data db) r.id = l at *
  cases l with
  | nil => cases hw
  | cons x l =>
    simp only [List.head?_cons, Option.some.injEq] at hd
    subst hd
    simp only [akeys, List.map_cons, List.mem_cons] at hw
    rcases hw with rfl | hw
    · exact Int.le_refl _
    · have := (List.pairwise_cons.1 (by simpa using hp : ((v :: l.map Prod.fst).Pairwise (· > ·)))).1 w hw
      omega

theorem DbOk.build (h : DbOk db m) (X : Parser P) {r : MongoRecord} (hr : r ∈ m.data db) (hv : r.version.isSome = true) :
    ∃ rvs, build X r (committedOptionsOf db m) = .ok rvs ∧ rvs ≠ [] ∧ dbDocs X db m r = createDocs rvs := by
  obtain ⟨v, hv⟩ := Option.isSome_iff_exists.1 hv
  obtain ⟨hi, d, hd⟩ := h.head hr hv
  have hne : histOf (m.data db) r.id ≠ [] := by intro he; rw [he] at hd; cases hd
  obtain ⟨rvs, first, x, h1, h2, h3, _⟩ := h.docs X hne
  exact ⟨rvs, by rw [build_eq_buildFrom hi (h.valid hne).nodup]; exact h1, h2, h3⟩

theorem DbOk.partitions (h : DbOk db m) (X : Parser P) {r : MongoRecord} (hne : histOf (m.data db) r.id ≠ []) :
    PartitionsTime X r.id (histOf (m.data db) r.id)
      (effectiveOptions (histOf (m.data db) r.id) (committedOptionsOf db m)) (dbDocs X db m r) := by
  obtain ⟨rvs, h1, h2⟩ := buildFrom_partitions (X := X) (id := r.id) (h.valid hne) h.options
  rw [dbDocs, recDocs_ok hne h1]; exact h2

theorem le_max_append {l1 l2 : List Int} {x : Int} (h : x ∈ l1 ∨ x ∈ l2) :
    ∃ c, (l1.max?.toList ++ l2.max?.toList).max? = some c ∧ x ≤ c := by
  have key : ∃ y ∈ l1.max?.toList ++ l2.max?.toList, x ≤ y := by
    rcases h with h | h
    · cases hm : l1.max? with
      | none => rw [List.max?_eq_none_iff] at hm; subst hm; cases h
      | some y => exact ⟨y, by simp, (List.max?_eq_some_iff.1 hm).2 x h⟩
    · cases hm : l2.max? with
      | none => rw [List.max?_eq_none_iff] at hm; subst hm; cases h
      | some y => exact ⟨y, by simp, (List.max?_eq_some_iff.1 hm).2 x h⟩
  obtain ⟨y, hy, hxy⟩ := key
  cases hm : (l1.max?.toList ++ l2.max?.toList).max? with
  | none => rw [List.max?_eq_none_iff] at hm; rw [hm] at hy; cases hy
  | some c =>
    have := (List.max?_eq_some_iff.1 hm).2 y hy
    exact ⟨c, rfl, by omega⟩

theorem options_le_committed {v : Int} (h : v ∈ akeys (committedOptionsOf db m)) :
    ∃ c, getCommittedVersion db m = some c ∧ v ≤ c := by
  obtain ⟨o, ho⟩ := exists_of_key h
  obtain ⟨⟨w, o'⟩, h1, h2⟩ := List.mem_filterMap.1 ho
  have hw : w = some v := by
    cases w with
    | none => cases h2
    | some w => simp only [Option.map_some, Option.some.injEq, Prod.mk.injEq] at h2; rw [h2.1]
  subst hw
  obtain ⟨_, d, hd, hn, hv⟩ := (getOptions_keys (db := db) (m := m) (some v)).1 (List.mem_map.2 ⟨_, h1, rfl⟩)
  exact le_max_append (.inr (List.mem_filterMap.2 ⟨d, List.mem_filter.2 ⟨hd, by simpa using hn⟩, hv⟩))

theorem record_le_committed {r : MongoRecord} (hr : r ∈ m.data db) {v : Int} (hv : r.version = some v) :
    ∃ c, getCommittedVersion db m = some c ∧ v ≤ c :=
  le_max_append (.inl (List.mem_filterMap.2 ⟨r, hr, hv⟩))

/-- Nothing of a record is newer than `e`, if neither its version nor that of any options is. -/
theorem DbOk.trunc_old (h : DbOk db m) (X : Parser P) {r : MongoRecord} {e : Int}
    (h1 : ∀ w ∈ akeys (histOf (m.data db) r.id), w ≤ e)
    (h2 : histOf (m.data db) r.id ≠ [] → ∀ w ∈ akeys (committedOptionsOf db m), w ≤ e) :
    trunc (some e) (dbDocs X db m r) = dbDocs X db m r := by
  by_cases hne : histOf (m.data db) r.id = []
  · rw [dbDocs, recDocs_nil hne]; rfl
  · have hk : ∀ w, IsKey (histOf (m.data db) r.id) (committedOptionsOf db m) w → w ≤ e := by
      rintro w (hw | hw)
      · exact h1 w hw
      · exact h2 hne w hw
    apply trunc_self
    · intro d hd
      have := hk _ (h.keys X hd).1
      simp only [gtAfter, decide_eq_false_iff_not]; omega
    · intro d hd f hf
      have := hk _ ((h.keys X hd).2 f hf)
      simp only [gtAfter, decide_eq_false_iff_not]; omega

/-- One sync: it completes indices that hold everything up to their version. Records with uncommitted changes
are not looked at. -/
theorem sync_step (hm : DbOk db m) (X : Parser P) (maxDocs : Nat) {es : ES P}
    (hh : Holds es (m.data db) (fun r => trunc es.version (dbDocs X db m r)))
    (hl : ∀ r ∈ m.data db, LastNotNew es.version (dbDocs X db m r))
    (hp : ∀ r ∈ m.data db, r.version = none → trunc es.version (dbDocs X db m r) = dbDocs X db m r) :
    ∃ es', sync X maxDocs db false m es = .ok es' ∧ Holds es' (m.data db) (dbDocs X db m) := by
  have hsame : (∀ r ∈ m.data db, trunc es.version (dbDocs X db m r) = dbDocs X db m r) →
      Holds es (m.data db) (dbDocs X db m) := by
    intro ht
    refine ⟨hh.ok, fun r hr => by rw [hh.latest r hr, ht r hr], hh.others, ?_⟩
    refine hh.archived.trans (List.Perm.of_eq ?_)
    apply List.flatMap_congr
    intro r hr
    rw [ht r hr]
  have hgen : ∀ sel : MongoRecord → Bool, (∀ r ∈ m.data db, sel r = true → r.version.isSome = true) →
      (∀ r ∈ m.data db, sel r = false → trunc es.version (dbDocs X db m r) = dbDocs X db m r) →
      ∃ ops arc', generateOps X maxDocs (committedOptionsOf db m) es.version es.arcStatus ((m.data db).filter sel) =
        .ok (ops, arc') ∧ Holds (es.applyOps ops) (m.data db) (dbDocs X db m) := fun sel h1 h2 =>
    generateOps_holds X maxDocs _ _ _ _ sel _ es hh hm.nodup (fun r hr hs => hm.build X hr (h1 r hr hs))
      (fun r hr => hm.good X r.id) (fun r hr _ => hl r hr) h2
  unfold sync syncOps
  by_cases hd : hasData db m = true
  · simp only [hd, Bool.not_true, Bool.false_eq_true, if_false, syncScope]
    cases hv : es.version with
    | none =>
      obtain ⟨ops, arc', h1, h2⟩ := hgen (fun r => r.version.isSome) (fun _ _ h => h)
        (fun r hr hs => hp r hr (by simpa using hs))
      rw [hv] at h1
      simp only [h1]
      exact ⟨_, rfl, h2⟩
    | some e =>
      obtain ⟨r0, hr0, hv0⟩ := List.any_eq_true.1 hd
      obtain ⟨v0, hv0⟩ := Option.isSome_iff_exists.1 hv0
      obtain ⟨c, hc, _⟩ := record_le_committed hr0 hv0
      simp only [hc]
      by_cases hle : e ≥ c
      · rw [if_pos hle]
        refine ⟨es, rfl, hsame ?_⟩
        intro r hr
        cases hrv : r.version with
        | none => exact hp r hr hrv
        | some v =>
          rw [hv]
          apply hm.trunc_old X
          · intro w hw
            have h1 := hm.key_le hr hrv hw
            obtain ⟨c', h2, h3⟩ := record_le_committed hr hrv
            rw [hc] at h2; cases h2; omega
          · intro _ w hw
            obtain ⟨c', h2, h3⟩ := options_le_committed hw
            rw [hc] at h2; cases h2; omega
      · rw [if_neg hle]
        by_cases ho : (akeys (committedOptionsOf db m)).any (fun v => decide (v > e)) = true
        · rw [if_pos ho]
          obtain ⟨ops, arc', h1, h2⟩ := hgen (fun r => r.version.isSome) (fun _ _ h => h)
            (fun r hr hs => hp r hr (by simpa using hs))
          rw [hv] at h1
          simp only [h1]
          exact ⟨_, rfl, h2⟩
        · rw [if_neg ho]
          obtain ⟨ops, arc', h1, h2⟩ := hgen
            (newerThan e) (fun r _ h => by
              unfold newerThan at h
              cases hrv : r.version with
              | none => rw [hrv] at h; cases h
              | some v => rfl) (fun r hr hs => by
              cases hrv : r.version with
              | none => exact hp r hr hrv
              | some v =>
                rw [newerThan, hrv] at hs
                simp only [decide_eq_false_iff_not] at hs
                rw [hv]
                apply hm.trunc_old X
                · intro w hw
                  have := hm.key_le hr hrv hw
                  omega
                · intro _ w hw
                  simp only [List.any_eq_true, decide_eq_true_eq, not_exists, not_and] at ho
                  have := ho w hw
                  omega)
          rw [hv] at h1
          simp only [h1]
          exact ⟨_, rfl, h2⟩
  · simp only [hd, Bool.not_false, if_true]
    refine ⟨es, rfl, hsame (fun r hr => hp r hr ?_)⟩
    cases hrv : r.version with
    | none => rfl
    | some v => exact absurd (List.any_eq_true.2 ⟨r, hr, by simp [hrv]⟩) hd

end
end Splitgill
