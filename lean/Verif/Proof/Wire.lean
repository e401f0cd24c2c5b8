import Verif.Proof.Mapping2
import Verif.Proof.Index2
/-!
# Lemmas: the ids and versions in the documents of a sync
-/

namespace Splitgill

variable {P : Type} {X : Parser P}

/-- The record id, and all versions, of a record version. -/
structure RvFrom (id : PyStr) (Q : Int → Prop) (rv : RecordVersion P) : Prop where
  id : rv.recordId = id
  version : Q rv.version
  deleted : ∀ d, rv.deletedAt = some d → Q d

theorem buildStep_from {id : PyStr} {Q : Int → Prop} {allData : List (Int × Dict)} {allOptions : List (Int × ParsingOptions)} {first : Int}
    {st st' : BuildState P} {v : Int} (hv : Q v) (h : buildStep X id allData allOptions first st v = .ok st')
    (hr : ∀ rv ∈ st.rvs, RvFrom id Q rv) : ∀ rv ∈ st'.rvs, RvFrom id Q rv := by
  unfold buildStep at h
  split at h
  · cases h; exact hr
  · dsimp only at h
    split at h
    · cases hl : st.rvs with
      | nil => rw [hl] at h; cases h
      | cons last rest =>
        rw [hl] at h hr
        cases h
        intro rv hrv
        rcases List.mem_cons.1 hrv with rfl | hrv
        · split
          · obtain ⟨h1, h2, _⟩ := hr last List.mem_cons_self
            exact ⟨h1, h2, fun d e => by cases e; exact hv⟩
          · exact hr last List.mem_cons_self
        · exact hr rv (List.mem_cons_of_mem _ hrv)
    · have hnew : ∀ p, RvFrom id Q (⟨id, v, p, none⟩ : RecordVersion P) := fun p => ⟨rfl, hv, fun d e => nomatch e⟩
      cases hl : st.rvs with
      | nil =>
        rw [hl] at h
        cases h
        intro rv hrv
        rw [List.mem_singleton] at hrv
        subst hrv
        exact hnew _
      | cons last rest =>
        rw [hl] at h hr
        cases h
        intro rv hrv
        dsimp only at hrv
        split at hrv
        · exact hr rv hrv
        · rcases List.mem_cons.1 hrv with rfl | hrv
          · exact hnew _
          · exact hr rv hrv

theorem buildLoop_from {id : PyStr} {Q : Int → Prop} {allData : List (Int × Dict)} {allOptions : List (Int × ParsingOptions)} {first : Int} :
    ∀ {vs : List Int} {st st' : BuildState P}, (∀ v ∈ vs, Q v) → buildLoop X id allData allOptions first st vs = .ok st' →
    (∀ rv ∈ st.rvs, RvFrom id Q rv) → ∀ rv ∈ st'.rvs, RvFrom id Q rv
  | [], st, st', _, h, hr => by cases h; exact hr
  | v :: vs, st, st', hv, h, hr => by
    rw [buildLoop] at h
    cases hs : buildStep X id allData allOptions first st v with
    | error e => rw [hs] at h; cases h
    | ok t =>
      rw [hs] at h
      exact buildLoop_from (fun v hm => hv v (List.mem_cons_of_mem _ hm)) h (buildStep_from (hv v List.mem_cons_self) hs hr)

theorem build_from {r : MongoRecord} {allOptions : List (Int × ParsingOptions)} {rvs : List (RecordVersion P)} (h : build X r allOptions = .ok rvs)
    {items} (hi : r.iter = .ok items) :
    ∀ rv ∈ rvs, RvFrom r.id (fun v => v ∈ akeys (committedOf items) ∨ v ∈ akeys allOptions) rv := by
  unfold build at h
  rw [hi] at h
  dsimp only at h
  cases hv : intVersions items with
  | error e => rw [hv] at h; cases h
  | ok l =>
    rw [hv] at h
    dsimp only at h
    unfold buildFrom at h
    cases h1 : (akeys (aofList l)).min? with
    | none => rw [h1] at h; cases h
    | some first =>
      cases h2 : (akeys allOptions).min? with
      | none => rw [h1, h2] at h; cases h
      | some firstOptions =>
        rw [h1, h2] at h
        dsimp only at h
        cases h3 : aget first (aofList l) with
        | none => rw [h3] at h; cases h
        | some data =>
          cases h4 : aget firstOptions allOptions with
          | none => rw [h3, h4] at h; cases h
          | some options =>
            rw [h3, h4] at h
            dsimp only at h
            cases hl : buildLoop X r.id (aofList l) allOptions first ⟨data, options, []⟩
                (sortedSet (akeys allOptions ++ akeys (aofList l))) with
            | error e => rw [hl] at h; cases h
            | ok st =>
              rw [hl] at h
              cases h
              intro rv hrv
              refine buildLoop_from (fun v hm => ?_) hl (fun _ hm => (nomatch hm)) rv (List.mem_reverse.1 hrv)
              rcases List.mem_append.1 (mem_sortedSet.1 hm) with hm | hm
              · exact .inr hm
              · have hm := mem_akeys_aofList.1 hm
                rw [intVersions_mem hv] at hm
                exact .inl hm

/-- The ids and versions of a document. -/
structure DocFrom (id : PyStr) (Q : Int → Prop) (doc : Doc P) : Prop where
  id : doc.id = id
  versions : ∀ v, (v = doc.version ∨ v = doc.gte ∨ doc.lt = some v ∨ doc.next = some v) → Q v

theorem createDoc_from {id : PyStr} {Q : Int → Prop} {rv : RecordVersion P} {next : Option (RecordVersion P)} (h : RvFrom id Q rv)
    (hn : ∀ n, next = some n → RvFrom id Q n) : DocFrom id Q (rv.createDoc next) := by
  have he : ∀ v, rv.versionEnd next = some v → Q v := by
    intro v e
    unfold RecordVersion.versionEnd at e
    cases hd : rv.deletedAt with
    | some d => rw [hd] at e; cases e; exact h.deleted _ hd
    | none =>
      rw [hd] at e
      obtain ⟨n, hn', rfl⟩ := Option.map_eq_some_iff.1 e
      exact (hn n hn').version
  refine ⟨h.id, ?_⟩
  rintro v (rfl | rfl | e | e)
  · exact h.version
  · exact h.version
  · exact he v e
  · exact he v e

/-- What an operation is about. -/
def OpFrom (id : PyStr) (Q : Int → Prop) : BulkOp P → Prop
  | .index _ _ doc => DocFrom id Q doc
  | .delete _ docId => docId = id

theorem rvOps_from {maxDocs : Nat} {after : Option Int} {id : PyStr} {Q : Int → Prop} : ∀ {rvs : List (RecordVersion P)} {arc : Nat × Nat},
    (∀ rv ∈ rvs, RvFrom id Q rv) → ∀ op ∈ (rvOps maxDocs after id arc rvs).1, OpFrom id Q op
  | [], arc, _, op, h => by cases h
  | rv :: rest, arc, hr, op, h => by
    have ih : ∀ arc, op ∈ (rvOps maxDocs after id arc rest).1 → OpFrom id Q op := fun arc h =>
      rvOps_from (fun rv hm => hr rv (List.mem_cons_of_mem _ hm)) op h
    have here : DocFrom id Q (rv.createDoc rest.head?) :=
      createDoc_from (hr rv List.mem_cons_self) (fun n e => hr n (List.mem_cons_of_mem _ (List.mem_of_mem_head? e)))
    have harch : ∀ pre : List (BulkOp P), (∀ op ∈ pre, op = .delete .latest id) →
        op ∈ pre ++ .index (.arc (nextArc maxDocs arc).1) none (rv.createDoc rest.head?) ::
          (rvOps maxDocs after id (nextArc maxDocs arc) rest).1 → OpFrom id Q op := by
      intro pre hpre h
      rcases List.mem_append.1 h with h | h
      · rw [hpre _ h]; rfl
      · rcases List.mem_cons.1 h with rfl | h
        · exact here
        · exact ih _ h
    rw [rvOps] at h
    dsimp only at h
    split at h
    · rcases List.mem_cons.1 h with rfl | h
      · exact here
      · exact ih _ h
    · split at h
      · exact harch [] (fun _ hm => (nomatch hm)) h
      · split at h
        · split at h
          · split at h
            · exact harch [.delete .latest id] (fun op hm => List.mem_singleton.1 hm) h
            · exact harch [] (fun _ hm => (nomatch hm)) h
          · exact ih _ h
        · exact ih _ h

/-- An operation of a sync is about one of the records: its document is a parse of data with options of the database, with its id and
versions. -/
theorem generateOps_from {maxDocs : Nat} {allOptions : List (Int × ParsingOptions)} {after : Option Int} :
    ∀ {records : List MongoRecord} {arc : Nat × Nat} {ops arc'}, generateOps X maxDocs allOptions after arc records = .ok (ops, arc') →
    ∀ op ∈ ops, ∃ r ∈ records, ∃ items, r.iter = .ok items ∧
      OpFrom r.id (fun v => v ∈ akeys (committedOf items) ∨ v ∈ akeys allOptions) op ∧
      ∀ ix docId doc, op = .index ix docId doc → ParseOf X (committedOf items) allOptions doc.parsed
  | [], arc, ops, arc', h, op, hm => by cases h; cases hm
  | r :: rest, arc, ops, arc', h, op, hm => by
    rw [generateOps] at h
    cases hb : build X r allOptions with
    | error e => rw [hb] at h; cases h
    | ok rvs =>
      rw [hb] at h
      cases rvs with
      | nil => cases h
      | cons rv rvs =>
        dsimp only at h
        cases hg : generateOps X maxDocs allOptions after (rvOps maxDocs after r.id arc (rv :: rvs)).2 rest with
        | error e => rw [hg] at h; cases h
        | ok x =>
          rw [hg] at h
          cases h
          rcases List.mem_append.1 hm with hm | hm
          · obtain ⟨items, h3, h4⟩ := build_parseOf hb
            refine ⟨r, List.mem_cons_self, items, h3, rvOps_from (build_from hb h3) op hm, ?_⟩
            rintro ix docId doc rfl
            obtain ⟨rv', h1, h2⟩ := rvOps_parsed hm
            rw [h2]
            exact h4 rv' h1
          · obtain ⟨r', h1, h2⟩ := generateOps_from hg op hm
            exact ⟨r', List.mem_cons_of_mem _ h1, h2⟩

end Splitgill
