import Verif.Proof.Mapping
import Verif.Proof.EndToEnd
import Verif.Proof.Raises
import Verif.Props.Prepare
/-!
# The documents of syncs are parses of data of the records
-/

namespace Splitgill

variable {P : Type} {X : Parser P}

/-- A parse of one of the data with one of the options. -/
def ParseOf (X : Parser P) (allData : List (Int × Dict)) (allOptions : List (Int × ParsingOptions)) (p : P) : Prop :=
  ∃ v data w o, (v, data) ∈ allData ∧ (w, o) ∈ allOptions ∧ p = X.parse data o

theorem buildStep_parseOf {id : PyStr} {allData : List (Int × Dict)} {allOptions : List (Int × ParsingOptions)} {first : Int}
    {st st' : BuildState P} {v : Int} (h : buildStep X id allData allOptions first st v = .ok st')
    (hd : ∃ v, (v, st.data) ∈ allData) (ho : ∃ v, (v, st.options) ∈ allOptions) (hr : ∀ rv ∈ st.rvs, ParseOf X allData allOptions rv.parsed) :
    (∃ v, (v, st'.data) ∈ allData) ∧ (∃ v, (v, st'.options) ∈ allOptions) ∧ ∀ rv ∈ st'.rvs, ParseOf X allData allOptions rv.parsed := by
  unfold buildStep at h
  split at h
  · cases h; exact ⟨hd, ho, hr⟩
  · have hd' : ∃ w, (w, (aget v allData).getD st.data) ∈ allData := by
      cases hg : aget v allData with
      | none => exact hd
      | some x => exact ⟨v, aget_mem hg⟩
    have ho' : ∃ w, (w, (aget v allOptions).getD st.options) ∈ allOptions := by
      cases hg : aget v allOptions with
      | none => exact ho
      | some x => exact ⟨v, aget_mem hg⟩
    dsimp only at h
    split at h
    · cases hl : st.rvs with
      | nil => rw [hl] at h; cases h
      | cons last rest =>
        rw [hl] at h hr
        cases h
        refine ⟨hd', ho', fun rv hrv => ?_⟩
        rcases List.mem_cons.1 hrv with rfl | hrv
        · have := hr last List.mem_cons_self
          split <;> exact this
        · exact hr rv (List.mem_cons_of_mem _ hrv)
    · obtain ⟨w, hw⟩ := hd'
      obtain ⟨w', hw'⟩ := ho'
      have hp : ParseOf X allData allOptions (X.parse ((aget v allData).getD st.data) ((aget v allOptions).getD st.options)) :=
        ⟨w, _, w', _, hw, hw', rfl⟩
      cases hl : st.rvs with
      | nil =>
        rw [hl] at h
        cases h
        refine ⟨⟨w, hw⟩, ⟨w', hw'⟩, fun rv hrv => ?_⟩
        rw [List.mem_singleton] at hrv
        subst hrv
        exact hp
      | cons last rest =>
        rw [hl] at h hr
        cases h
        refine ⟨⟨w, hw⟩, ⟨w', hw'⟩, fun rv hrv => ?_⟩
        dsimp only at hrv
        split at hrv
        · exact hr rv hrv
        · rcases List.mem_cons.1 hrv with rfl | hrv
          · exact hp
          · exact hr rv hrv

theorem buildLoop_parseOf {id : PyStr} {allData : List (Int × Dict)} {allOptions : List (Int × ParsingOptions)} {first : Int} :
    ∀ {vs : List Int} {st st' : BuildState P}, buildLoop X id allData allOptions first st vs = .ok st' →
    (∃ v, (v, st.data) ∈ allData) → (∃ v, (v, st.options) ∈ allOptions) → (∀ rv ∈ st.rvs, ParseOf X allData allOptions rv.parsed) →
    ∀ rv ∈ st'.rvs, ParseOf X allData allOptions rv.parsed
  | [], st, st', h, _, _, hr => by cases h; exact hr
  | v :: vs, st, st', h, hd, ho, hr => by
    rw [buildLoop] at h
    cases hs : buildStep X id allData allOptions first st v with
    | error e => rw [hs] at h; cases h
    | ok t =>
      rw [hs] at h
      obtain ⟨h1, h2, h3⟩ := buildStep_parseOf hs hd ho hr
      exact buildLoop_parseOf h h1 h2 h3

theorem buildFrom_parseOf {id : PyStr} {allData : List (Int × Dict)} {allOptions : List (Int × ParsingOptions)}
    {rvs : List (RecordVersion P)} (h : buildFrom X id allData allOptions = .ok rvs) : ∀ rv ∈ rvs, ParseOf X allData allOptions rv.parsed := by
  unfold buildFrom at h
  split at h
  · rename_i first firstOptions h1 h2
    split at h
    · rename_i data options h3 h4
      cases hl : buildLoop X id allData allOptions first ⟨data, options, []⟩ (sortedSet (akeys allOptions ++ akeys allData)) with
      | error e => rw [hl] at h; cases h
      | ok st =>
        rw [hl] at h
        cases h
        intro rv hrv
        exact buildLoop_parseOf hl ⟨first, aget_mem h3⟩ ⟨firstOptions, aget_mem h4⟩ (fun _ hm => (nomatch hm)) rv (List.mem_reverse.1 hrv)
    · cases h
  · cases h

theorem intVersions_mem : ∀ {items : List VersionedData} {l : List (Int × Dict)}, intVersions items = .ok l →
    l = committedOf items
  | [], l, h => by cases h; rfl
  | (none, _) :: _, l, h => by cases h
  | (some v, d) :: rest, l, h => by
    rw [intVersions] at h
    cases hr : intVersions rest with
    | error e => rw [hr] at h; cases h
    | ok r =>
      rw [hr] at h
      cases h
      rw [intVersions_mem hr]
      rfl

theorem build_parseOf {r : MongoRecord} {allOptions : List (Int × ParsingOptions)} {rvs : List (RecordVersion P)}
    (h : build X r allOptions = .ok rvs) : ∃ items, r.iter = .ok items ∧ ∀ rv ∈ rvs, ParseOf X (committedOf items) allOptions rv.parsed := by
  unfold build at h
  cases hi : r.iter with
  | error e => rw [hi] at h; cases h
  | ok items =>
    rw [hi] at h
    dsimp only at h
    cases hv : intVersions items with
    | error e => rw [hv] at h; cases h
    | ok l =>
      rw [hv] at h
      refine ⟨items, rfl, fun rv hrv => ?_⟩
      obtain ⟨v, data, w, o, h1, h2, h3⟩ := buildFrom_parseOf h rv hrv
      rw [← intVersions_mem hv]
      exact ⟨v, data, w, o, mem_aofList h1, h2, h3⟩

theorem rvOps_parsed {maxDocs : Nat} {after : Option Int} {id : PyStr} : ∀ {rvs : List (RecordVersion P)} {arc : Nat × Nat} {ix docId doc},
    .index ix docId doc ∈ (rvOps maxDocs after id arc rvs).1 → ∃ rv ∈ rvs, doc.parsed = rv.parsed
  | [], arc, ix, docId, doc, h => by cases h
  | rv :: rest, arc, ix, docId, doc, h => by
    have ih : ∀ arc, .index ix docId doc ∈ (rvOps maxDocs after id arc rest).1 → ∃ rv' ∈ rv :: rest, doc.parsed = rv'.parsed := fun arc h => by
      obtain ⟨rv', h1, h2⟩ := rvOps_parsed h
      exact ⟨rv', List.mem_cons_of_mem _ h1, h2⟩
    have here : ∀ ix' docId', BulkOp.index ix docId doc = .index ix' docId' (rv.createDoc rest.head?) → ∃ rv' ∈ rv :: rest, doc.parsed = rv'.parsed := by
      intro ix' docId' e
      cases e
      exact ⟨rv, List.mem_cons_self, rfl⟩
    have harch : ∀ pre : List (BulkOp P), (∀ op ∈ pre, ∃ ix id, op = .delete ix id) →
        BulkOp.index ix docId doc ∈ pre ++ .index (.arc (nextArc maxDocs arc).1) none (rv.createDoc rest.head?) ::
          (rvOps maxDocs after id (nextArc maxDocs arc) rest).1 → ∃ rv' ∈ rv :: rest, doc.parsed = rv'.parsed := by
      intro pre hpre h
      rcases List.mem_append.1 h with h | h
      · obtain ⟨_, _, e⟩ := hpre _ h; cases e
      · rcases List.mem_cons.1 h with h | h
        · exact here _ _ h
        · exact ih _ h
    rw [rvOps] at h
    dsimp only at h
    split at h
    · rcases List.mem_cons.1 h with h | h
      · exact here _ _ h
      · exact ih _ h
    · split at h
      · exact harch [] (fun _ hm => (nomatch hm)) h
      · split at h
        · split at h
          · split at h
            · exact harch [.delete .latest id] (fun op hm => ⟨_, _, List.mem_singleton.1 hm⟩) h
            · exact harch [] (fun _ hm => (nomatch hm)) h
          · exact ih _ h
        · exact ih _ h

theorem generateOps_parsed {maxDocs : Nat} {allOptions : List (Int × ParsingOptions)} {after : Option Int} :
    ∀ {records : List MongoRecord} {arc : Nat × Nat} {ops arc' ix docId doc}, generateOps X maxDocs allOptions after arc records = .ok (ops, arc') →
    .index ix docId doc ∈ ops → ∃ r ∈ records, ∃ items, r.iter = .ok items ∧ ParseOf X (committedOf items) allOptions doc.parsed
  | [], arc, ops, arc', ix, docId, doc, h, hm => by cases h; cases hm
  | r :: rest, arc, ops, arc', ix, docId, doc, h, hm => by
    rw [generateOps] at h
    cases hb : build X r allOptions with
    | error e => rw [hb] at h; cases h
    | ok rvs =>
      rw [hb] at h
      cases rvs with
      | nil => cases h
      | cons rv rvs =>
        dsimp only at h
        cases hg : generateOps X maxDocs allOptions after (rvOps maxDocs after r.id arc (rv :: rvs)).2 rest with
        | error e => rw [hg] at h; cases h
        | ok x =>
          rw [hg] at h
          cases h
          rcases List.mem_append.1 hm with hm | hm
          · obtain ⟨rv', h1, h2⟩ := rvOps_parsed hm
            obtain ⟨items, h3, h4⟩ := build_parseOf hb
            rw [h2]
            exact ⟨r, List.mem_cons_self, items, h3, h4 rv' h1⟩
          · obtain ⟨r', h1, h2⟩ := generateOps_parsed hg hm
            exact ⟨r', List.mem_cons_of_mem _ h1, h2⟩

end Splitgill
