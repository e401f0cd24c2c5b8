import Verif.Spec.Doubles
import Verif.Proof.Query2
import Verif.Proof.Wire2
import Verif.Proof.Bson
import Verif.Props.Time
/-!
# C105: the version of the indices, which Elasticsearch computes with doubles
-/

namespace Splitgill.Props
open Splitgill

variable {P : Type}

/-- C105 in full: whatever the indices hold, `get_elasticsearch_version()` returns the newest version in them. -/
def C105_full : Prop := ∀ (P : Type) (es : ES P), IsNewest es es.doubleVersion

/-- The versions that the indices tell are such that doubles hold them exactly. -/
def ExactVersions (es : ES P) : Prop := ∀ v, TellsVersion es v → |v| ≤ 2 ^ 53

theorem isNewest_version (es : ES P) : IsNewest es es.version := by
  have key : ∀ v, TellsVersion es v ↔ v ∈ es.all.map (·.version) ++ es.all.filterMap (·.next) := by
    intro v
    unfold TellsVersion
    simp only [List.mem_append, List.mem_map, List.mem_filterMap]
    constructor
    · rintro ⟨d, hd, h | h⟩
      · exact .inl ⟨d, hd, h⟩
      · exact .inr ⟨d, hd, h⟩
    · rintro (⟨d, hd, h⟩ | ⟨d, hd, h⟩)
      · exact ⟨d, hd, .inl h⟩
      · exact ⟨d, hd, .inr h⟩
  cases h : es.version with
  | none =>
    unfold ES.version at h
    rw [List.max?_eq_none_iff] at h
    intro v hv
    rw [key, h] at hv
    cases hv
  | some v =>
    unfold ES.version at h
    rw [List.max?_eq_some_iff] at h
    exact ⟨(key v).2 h.1, fun w hw => h.2 w ((key w).1 hw)⟩

theorem isNewest_unique {es : ES P} {a b : Option Int} (ha : IsNewest es a) (hb : IsNewest es b) : a = b := by
  cases a with
  | none =>
    cases b with
    | none => rfl
    | some w => exact absurd hb.1 (ha w)
  | some v =>
    cases b with
    | none => exact absurd ha.1 (hb v)
    | some w => rw [Int.le_antisymm (hb.2 v ha.1) (ha.2 w hb.1)]

theorem truncate_int (i : Int) : truncate (i : ℚ) = i := by
  unfold truncate
  split
  · exact Int.floor_intCast i
  · rw [← Int.cast_neg, Int.floor_intCast, neg_neg]

theorem maxAgg_exact {l : List Int} (h : ∀ i ∈ l, |i| ≤ 2 ^ 53) : maxAgg l = l.max?.map (fun (i : Int) => (i : ℚ)) := by
  have hm : l.map (fun (i : Int) => fl (i : ℚ)) = l.map (fun (i : Int) => (i : ℚ)) :=
    List.map_congr_left (fun i hi => fl_isDouble (isDouble_int (h i hi)))
  unfold maxAgg
  rw [hm]
  cases hx : l.max? with
  | none =>
    rw [List.max?_eq_none_iff] at hx
    subst hx
    rfl
  | some v =>
    rw [List.max?_eq_some_iff] at hx
    show _ = some (v : ℚ)
    rw [List.max?_eq_some_iff]
    refine ⟨List.mem_map_of_mem hx.1, fun q hq => ?_⟩
    obtain ⟨i, hi, rfl⟩ := List.mem_map.1 hq
    exact_mod_cast hx.2 i hi

theorem laterValue_exact (a b : Option Int) :
    (laterValue (a.map (fun (i : Int) => (i : ℚ))) (b.map (fun (i : Int) => (i : ℚ)))).map truncate =
      match b with
      | none => a
      | some x => match a with
        | none => some x
        | some v => some (max v x) := by
  cases b with
  | none => cases a <;> simp [laterValue, truncate_int]
  | some x =>
    cases a with
    | none => simp [laterValue, truncate_int]
    | some v =>
      simp only [laterValue, Option.map_some]
      split
      · rename_i hvx
        have : v < x := by exact_mod_cast hvx
        rw [Option.map_some, truncate_int, Int.max_eq_right (Int.le_of_lt this)]
      · rename_i hvx
        have : x ≤ v := by exact_mod_cast not_lt.1 hvx
        rw [Option.map_some, truncate_int, Int.max_eq_left this]

/-- The double version is the exact one. -/
theorem doubleVersion_eq {es : ES P} (h : ExactVersions es) : es.doubleVersion = es.version := by
  have h1 : ∀ i ∈ es.all.map (·.version), |i| ≤ 2 ^ 53 := by
    intro i hi
    obtain ⟨d, hd, rfl⟩ := List.mem_map.1 hi
    exact h _ ⟨d, hd, .inl rfl⟩
  have h2 : ∀ i ∈ es.all.filterMap (·.next), |i| ≤ 2 ^ 53 := by
    intro i hi
    obtain ⟨d, hd, hn⟩ := List.mem_filterMap.1 hi
    exact h _ ⟨d, hd, .inr hn⟩
  unfold ES.doubleVersion
  rw [maxAgg_exact h1, maxAgg_exact h2]
  have h3 : laterValue none ((es.all.map (·.version)).max?.map (fun (i : Int) => (i : ℚ))) =
      (es.all.map (·.version)).max?.map (fun (i : Int) => (i : ℚ)) := by
    cases (es.all.map (·.version)).max? <;> rfl
  rw [h3, laterValue_exact]
  unfold ES.version
  cases ha : (es.all.map (·.version)).max? with
  | none =>
    rw [List.max?_eq_none_iff] at ha
    rw [ha, List.nil_append]
    cases (es.all.filterMap (·.next)).max? <;> rfl
  | some v =>
    cases hb : (es.all.filterMap (·.next)).max? with
    | none =>
      rw [List.max?_eq_none_iff] at hb
      rw [hb, List.append_nil, ha]
    | some x =>
      dsimp only
      rw [List.max?_eq_some_iff] at ha hb
      symm
      rw [List.max?_eq_some_iff]
      refine ⟨?_, fun y hy => ?_⟩
      · rw [List.mem_append]
        rcases le_total v x with hvx | hvx
        · rw [Int.max_eq_right hvx]; exact .inr hb.1
        · rw [Int.max_eq_left hvx]; exact .inl ha.1
      · rcases List.mem_append.1 hy with hy | hy
        · exact le_trans (ha.2 y hy) (le_max_left _ _)
        · exact le_trans (hb.2 y hy) (le_max_right _ _)

/-- **C105 (partial)** if all versions in the indices are up to `2**53`, `get_elasticsearch_version()` returns the newest one, or `None`
if there are no documents. Missing: later versions (`C105_refuted`). -/
theorem C105_newest_partial (es : ES P) (h : ExactVersions es) : IsNewest es es.doubleVersion := by
  rw [doubleVersion_eq h]
  exact isNewest_version es

theorem syncByDoubles_eq {X : Parser P} {maxDocs : Nat} {db : PyStr} {resync : Bool} {m : Mongo} {es : ES P} (h : ExactVersions es) :
    syncByDoubles X maxDocs db resync m es = sync X maxDocs db resync m es := by
  unfold syncByDoubles sync syncOps
  rw [doubleVersion_eq h]
  have : scopeSince db resync m es.version = syncScope db resync m es := rfl
  rw [this]
  split
  · rfl
  · cases syncScope db resync m es with
    | error e => rfl
    | ok o =>
      cases o with
      | none => rfl
      | some x =>
        obtain ⟨sel, lastSync⟩ := x
        dsimp only
        cases generateOps X maxDocs (committedOptionsOf db m) lastSync (if resync = true then es.deleteArcs else es).arcStatus
            ((m.data db).filter sel) with
        | error e => rfl
        | ok x => rfl

theorem exact_apply {es : ES P} (h : ExactVersions es) {op : BulkOp P}
    (ho : ∀ ix i d, op = .index ix i d → |d.version| ≤ 2 ^ 53 ∧ ∀ n, d.next = some n → |n| ≤ 2 ^ 53) : ExactVersions (op.apply es) := by
  have hput : ∀ ix docs, (∀ x ∈ docs, |x.2.version| ≤ 2 ^ 53 ∧ ∀ n, x.2.next = some n → |n| ≤ 2 ^ 53) →
      ExactVersions (aset ix docs es) := by
    rintro ix docs hd v ⟨d, hm, hv⟩
    obtain ⟨x, hx, hm⟩ := List.mem_flatMap.1 hm
    obtain ⟨y, hy, rfl⟩ := List.mem_map.1 hm
    rcases mem_aset hx with rfl | hx
    · rcases hv with rfl | hv
      · exact (hd y hy).1
      · exact (hd y hy).2 v hv
    · exact h v ⟨_, List.mem_flatMap.2 ⟨x, hx, List.mem_map_of_mem hy⟩, hv⟩
  have hold : ∀ ix, ∀ x ∈ es.docs ix, |x.2.version| ≤ 2 ^ 53 ∧ ∀ n, x.2.next = some n → |n| ≤ 2 ^ 53 := by
    intro ix x hx
    unfold ES.docs at hx
    cases ha : aget ix es with
    | none => rw [ha] at hx; cases hx
    | some docs =>
      rw [ha] at hx
      have hm : x.2 ∈ es.all := List.mem_flatMap.2 ⟨_, aget_mem ha, List.mem_map_of_mem hx⟩
      exact ⟨h _ ⟨_, hm, .inl rfl⟩, fun n hn => h _ ⟨_, hm, .inr hn⟩⟩
  cases op with
  | index ix docId doc =>
    refine hput ix _ (fun x hx => ?_)
    unfold indexDoc at hx
    cases docId with
    | none =>
      rcases List.mem_append.1 hx with hx | hx
      · exact hold ix x hx
      · rw [List.mem_singleton] at hx
        subst hx
        exact ho _ _ _ rfl
    | some i =>
      rcases mem_aset hx with rfl | hx
      · exact ho _ _ _ rfl
      · exact hold ix x hx
  | delete ix docId => exact hput ix _ (fun x hx => hold ix x (mem_of_mem_aerase hx))

theorem exact_applyOps : ∀ {ops : List (BulkOp P)} {es : ES P}, ExactVersions es →
    (∀ op ∈ ops, ∀ ix i d, op = .index ix i d → |d.version| ≤ 2 ^ 53 ∧ ∀ n, d.next = some n → |n| ≤ 2 ^ 53) →
    ExactVersions (es.applyOps ops)
  | [], _, h, _ => h
  | op :: ops, es, h, ho => exact_applyOps (ops := ops) (exact_apply h (ho op List.mem_cons_self)) (fun o hm => ho o (List.mem_cons_of_mem _ hm))

theorem exact_generate {X : Parser P} {maxDocs : Nat} {db : PyStr} {m : Mongo} (hm : ∀ v, IsVersion m db v → |v| ≤ 2 ^ 53)
    {after : Option Int} {sel : MongoRecord → Bool} {arc arc' : Nat × Nat} {ops : List (BulkOp P)}
    (hg : generateOps X maxDocs (committedOptionsOf db m) after arc ((m.data db).filter sel) = .ok (ops, arc')) :
    ∀ op ∈ ops, ∀ ix i d, op = .index ix i d → |d.version| ≤ 2 ^ 53 ∧ ∀ n, d.next = some n → |n| ≤ 2 ^ 53 := by
  rintro op hop ix i d rfl
  obtain ⟨r, hr, items, hi, h1, _⟩ := generateOps_from hg _ hop
  have h1 : DocFrom r.id _ d := h1
  have hv : ∀ v, (v ∈ akeys (committedOf items) ∨ v ∈ akeys (committedOptionsOf db m)) → |v| ≤ 2 ^ 53 := by
    rintro v (h | h)
    · exact hm v (.inl ⟨r, (List.mem_filter.1 hr).1, iter_versions hi h⟩)
    · exact hm v (options_versions h)
  exact ⟨hv _ (h1.versions _ (.inl rfl)), fun n hn => hv _ (h1.versions _ (.inr (.inr (.inr hn))))⟩

theorem exact_deleteArcs {es : ES P} (h : ExactVersions es) : ExactVersions es.deleteArcs := by
  rintro v ⟨d, hd, hv⟩
  obtain ⟨x, hx, hm⟩ := List.mem_flatMap.1 hd
  exact h v ⟨d, List.mem_flatMap.2 ⟨x, (List.mem_filter.1 hx).1, hm⟩, hv⟩

theorem exact_sync {X : Parser P} {maxDocs : Nat} {db : PyStr} {resync : Bool} {m : Mongo} (hm : ∀ v, IsVersion m db v → |v| ≤ 2 ^ 53)
    {es es' : ES P} (h : ExactVersions es) (hs : sync X maxDocs db resync m es = .ok es') : ExactVersions es' := by
  unfold sync syncOps at hs
  by_cases hd : (!hasData db m) = true
  · rw [if_pos hd] at hs
    cases hs
    exact h
  · rw [if_neg hd] at hs
    cases hsc : syncScope db resync m es with
    | error e => rw [hsc] at hs; cases hs
    | ok o =>
      rw [hsc] at hs
      cases o with
      | none => cases hs; exact h
      | some x =>
        obtain ⟨sel, lastSync⟩ := x
        dsimp only at hs
        cases hg : generateOps X maxDocs (committedOptionsOf db m) lastSync (if resync = true then es.deleteArcs else es).arcStatus
            ((m.data db).filter sel) with
        | error e => rw [hg] at hs; cases hs
        | ok x =>
          rw [hg] at hs
          cases hs
          refine exact_applyOps ?_ (exact_generate hm hg)
          split
          · exact exact_deleteArcs h
          · exact h

theorem exact_resyncArcs {X : Parser P} {maxDocs : Nat} {db : PyStr} {m : Mongo} (hm : ∀ v, IsVersion m db v → |v| ≤ 2 ^ 53)
    {es es' : ES P} (h : ExactVersions es) (hs : resyncArcs X maxDocs db m es = .ok es') : ExactVersions es' := by
  unfold resyncArcs at hs
  dsimp only at hs
  cases hg : generateOps X maxDocs (committedOptionsOf db m) none es.deleteArcs.arcStatus ((m.data db).filter (fun r => r.version.isSome)) with
  | error e => rw [hg] at hs; cases hs
  | ok x =>
    rw [hg] at hs
    cases hs
    exact exact_applyOps (exact_deleteArcs h) (fun op ho => exact_generate hm hg op (List.mem_filter.1 ho).1)

/-- **C105 (partial)** any number of syncs, resyncs and rebuilds of archives, of whatever is committed then with versions up to `2**53`
(of data and of options): with the version as a double they do what they do with the exact one, and `get_elasticsearch_version()`
afterwards is the newest version in the indices. Missing: later versions. -/
theorem C105_syncs_partial (X : Parser P) (maxDocs : Nat) (db : PyStr) (cs : List (SyncCall × Mongo))
    (hm : ∀ cm ∈ cs, ∀ v, IsVersion cm.2 db v → |v| ≤ 2 ^ 53) :
    runByDoubles X maxDocs db [] cs = runInOrder X maxDocs db [] cs ∧
      ∀ es, runByDoubles X maxDocs db [] cs = .ok es → IsNewest es es.doubleVersion ∧ ∀ at_, es.searchByDoubles at_ = es.search at_ := by
  suffices ∀ (es : ES P), ExactVersions es → runByDoubles X maxDocs db es cs = runInOrder X maxDocs db es cs ∧
      ∀ es', runInOrder X maxDocs db es cs = .ok es' → ExactVersions es' by
    obtain ⟨h1, h2⟩ := this [] (fun v ⟨d, hd, _⟩ => nomatch hd)
    refine ⟨h1, fun es he => ?_⟩
    have hx := h2 es (h1 ▸ he)
    refine ⟨C105_newest_partial es hx, fun at_ => ?_⟩
    cases at_ with
    | version v =>
      unfold ES.searchByDoubles ES.search
      rw [doubleVersion_eq hx]
      cases es.version <;> rfl
    | latest => rfl
    | all => rfl
  induction cs with
  | nil => exact fun es h => ⟨rfl, fun es' e => by cases e; exact h⟩
  | cons cm cs ih =>
    intro es h
    obtain ⟨c, m⟩ := cm
    have hmm := hm (c, m) List.mem_cons_self
    have ih := ih (fun x hx => hm x (List.mem_cons_of_mem _ hx))
    cases c with
    | sync resync =>
      rw [runByDoubles, runInOrder]
      dsimp only [SyncCall.run]
      rw [syncByDoubles_eq h]
      cases hs : sync X maxDocs db resync m es with
      | error e => exact ⟨rfl, fun es' he => nomatch he⟩
      | ok es1 => exact ih es1 (exact_sync hmm h hs)
    | resyncArcs =>
      rw [runByDoubles, runInOrder]
      dsimp only [SyncCall.run]
      cases hs : resyncArcs X maxDocs db m es with
      | error e => exact ⟨rfl, fun es' he => nomatch he⟩
      | ok es1 => exact ih es1 (exact_resyncArcs hmm h hs)

/-- **C105** (when): all versions that the clock can give are such: the timestamps of all datetimes, from the year 1 to the end of the
year 9999. -/
theorem C105_clock (us : ℤ) (h1 : -62135596800 * 10 ^ 6 ≤ us) (h2 : us ≤ 253402300800 * 10 ^ 6) : |toTimestamp us| ≤ 2 ^ 53 := by
  have h3 : toTimestamp (253402300800 * 10 ^ 6) ≤ 2 ^ 53 := by decide +kernel
  have h4 : -2 ^ 53 ≤ toTimestamp (-62135596800 * 10 ^ 6) := by decide +kernel
  rw [abs_le]
  exact ⟨le_trans h4 (toTimestamp_mono h1), le_trans (toTimestamp_mono h2) h3⟩

/-- A document with a version that no double holds. -/
def exFar : ES Unit := [(.latest, [(some ['a'], ⟨['a'], 2 ^ 53 + 1, 2 ^ 53 + 1, none, none, ()⟩)])]

/-- **C105 does not hold in full**: the version `2**53 + 1` is read as `2**53`. -/
theorem C105_refuted : ¬ C105_full := by
  intro h
  have h1 : exFar.doubleVersion = some (2 ^ 53) := by decide +kernel
  have h2 : exFar.version = some (2 ^ 53 + 1) := by decide +kernel
  have := isNewest_unique (h _ exFar) (isNewest_version exFar)
  rw [h1, h2] at this
  exact absurd this (by decide)

/-- Versions of today. -/
def exToday : ES Unit := [(.latest, [(some ['a'], ⟨['a'], 1763400000123, 1763400000123, none, none, ()⟩)]),
  (.arc 0, [(none, ⟨['b'], 1763400000122, 1763400000122, some 1763400000124, some 1763400000124, ()⟩)])]

/-- The newest version is that of a deletion. -/
example : ExactVersions exToday ∧ exToday.doubleVersion = some 1763400000124 := by
  refine ⟨?_, by decide +kernel⟩
  rintro v ⟨d, hd, hv⟩
  simp only [exToday, ES.all, List.flatMap_cons, List.map_cons, List.map_nil, List.flatMap_nil, List.append_nil, List.singleton_append,
    List.mem_cons, List.not_mem_nil, or_false] at hd
  rcases hd with rfl | rfl <;> rcases hv with rfl | hv <;> first | decide | (cases hv; decide) | cases hv

end Splitgill.Props
