import Verif.Proof.Check
/-!
# Lemmas: first syncs, resyncs and repeated syncs
-/

namespace Splitgill

section
variable {P : Type} {X : Parser P} {db : PyStr} {m : Mongo}

/-! ## What is in the indices, for the specification -/

theorem openOf_of_mem {D : List (Doc P)} (hg : GoodDocs D) {d : Doc P} (hd : d ∈ D) (hlt : d.lt = none) :
    openOf D = some d := by
  induction D with
  | nil => cases hd
  | cons x l ih =>
    rcases List.mem_cons.1 hd with rfl | hd'
    · simp [openOf, hlt]
    · obtain ⟨e, he, _⟩ := (List.pairwise_cons.1 hg.pair).1 d hd'
      have : openOf (x :: l) = openOf l := by simp [openOf, List.find?_cons, he]
      rw [this]
      exact ih hg.tail hd'

theorem Holds.indexes {es : ES P} {rs : List MongoRecord} (hm : DbOk db m) (h : Holds es rs (dbDocs X db m)) :
    IndexesRecords X db m rs es := by
  refine ⟨dbDocs X db m, fun r _ hne => hm.partitions X hne, fun r _ he => recDocs_nil he, h.ok.nodup, ?_, h.archived⟩
  intro key d
  constructor
  · intro hm
    cases key with
    | none => exact absurd (List.mem_map_of_mem hm) h.ok.hasId
    | some id =>
      have hl : es.latestOf id = some d := aget_of_mem h.ok.nodup hm
      by_cases hid : id ∈ rs.map MongoRecord.id
      · obtain ⟨r, hr, rfl⟩ := List.mem_map.1 hid
        rw [h.latest r hr] at hl
        have h1 := List.mem_of_find?_eq_some hl
        have h2 := List.find?_some hl
        exact ⟨r, hr, rfl, h1, by simpa using h2⟩
      · rw [h.others id hid] at hl; cases hl
  · rintro ⟨r, hr, rfl, hd, hlt⟩
    apply aget_mem
    have := h.latest r hr
    exact this.trans (openOf_of_mem (hm.good X r.id) hd hlt)

/-! ## First syncs -/

theorem filter_true {α : Type} (l : List α) : l.filter (fun _ => true) = l := by simp

/-- The operations of a first sync, on indices of which the archives are empty and the latest index has only records
that exist. -/
theorem generate_first (hm : DbOk db m) (X : Parser P) (maxDocs : Nat) {es : ES P} (hok : LatestOk es)
    (ha : es.archived = []) (arc : Nat × Nat)
    (hl : ∀ id, es.latestOf id ≠ none → ∃ r ∈ m.data db, r.version.isSome = true ∧ r.id = id ∧ openOf (dbDocs X db m r) ≠ none) :
    ∃ ops arc', generateOps X maxDocs (committedOptionsOf db m) none arc
        ((m.data db).filter (fun r => r.version.isSome)) = .ok (ops, arc') ∧
      Holds (es.applyOps ops) ((m.data db).filter (fun r => r.version.isSome)) (dbDocs X db m) := by
  have hmem : ∀ {r}, r ∈ (m.data db).filter (fun r => r.version.isSome) ↔ r ∈ m.data db ∧ r.version.isSome = true :=
    fun {r} => List.mem_filter
  have hnod : (((m.data db).filter (fun r => r.version.isSome)).map MongoRecord.id).Nodup :=
    (List.Sublist.map _ List.filter_sublist).nodup hm.nodup
  obtain ⟨ops, arc', h1, h2, h3, h4, h5⟩ := generateOps_effect X maxDocs (committedOptionsOf db m) none
    ((m.data db).filter (fun r => r.version.isSome)) arc es hok hnod (fun r hr => by
      obtain ⟨rvs, ha, hb, _⟩ := hm.build X (hmem.1 hr).1 (hmem.1 hr).2
      exact ⟨rvs, ha, hb⟩)
  have hd : ∀ r ∈ (m.data db).filter (fun r => r.version.isSome), docsOf X (committedOptionsOf db m) r = dbDocs X db m r := by
    intro r hr
    obtain ⟨rvs, ha, _, hc⟩ := hm.build X (hmem.1 hr).1 (hmem.1 hr).2
    simp [docsOf, ha, hc]
  have hold : ∀ r ∈ (m.data db).filter (fun r => r.version.isSome), openOf (dbDocs X db m r) = none → es.latestOf r.id = none := by
    intro r hr ho
    by_contra hne
    obtain ⟨r', hr', hv', hid, ho'⟩ := hl r.id hne
    have e1 := findRecord_of_mem (c := m.data db) hm.nodup hr'
    have e2 := findRecord_of_mem (c := m.data db) hm.nodup (hmem.1 hr).1
    rw [hid, e2] at e1
    cases e1
    exact ho' ho
  refine ⟨ops, arc', h1, h2, fun r hr => ?_, fun id hid => ?_, ?_⟩
  · rw [h4 r hr, hd r hr]
    have hs := latest_step none (dbDocs X db m r) (hm.good X r.id) (by
      intro h; rw [trunc_none] at h; exact absurd rfl h)
    rw [trunc_none] at hs
    cases hact : latestAct none (dbDocs X db m r) with
    | put d => rw [hact] at hs; exact hs
    | remove => rw [hact] at hs; exact hs
    | leave =>
      rw [hact] at hs
      have hs : openOf (dbDocs X db m r) = none := hs.symm
      rw [hs]
      exact hold r hr hs
  · rw [h5 id hid]
    by_contra hne
    obtain ⟨r', hr', hv', hid', _⟩ := hl id hne
    exact hid (hid' ▸ List.mem_map_of_mem (hmem.2 ⟨hr', hv'⟩))
  · refine h3.trans ?_
    rw [ha, List.nil_append]
    have hp : ∀ l : List MongoRecord, (∀ r ∈ l, docsOf X (committedOptionsOf db m) r = dbDocs X db m r) →
        (l.flatMap (fun r => toArchive none (docsOf X (committedOptionsOf db m) r))).Perm
          (l.flatMap (fun r => closedOf (dbDocs X db m r))) := by
      intro l
      induction l with
      | nil => intro _; simp
      | cons r l ih =>
        intro hl
        simp only [List.flatMap_cons]
        refine List.Perm.append ?_ (ih (fun r hr => hl r (List.mem_cons_of_mem _ hr)))
        rw [hl r List.mem_cons_self]
        have := archive_step none (dbDocs X db m r) (hm.good X r.id)
        rw [trunc_none] at this
        simpa [closedOf] using this
    exact hp _ hd

theorem latestOf_nil (id : PyStr) : ES.latestOf ([] : ES P) id = none := rfl

theorem filter_hasData (h : hasData db m = false) : (m.data db).filter (fun r => r.version.isSome) = [] := by
  rw [List.filter_eq_nil_iff]
  intro r hr hs
  have : hasData db m = true := List.any_eq_true.2 ⟨r, hr, hs⟩
  rw [h] at this; cases this

/-- The first sync covers the records without uncommitted changes. -/
theorem first_sync (hm : DbOk db m) (X : Parser P) (maxDocs : Nat) :
    ∃ es, sync X maxDocs db false m [] = .ok es ∧
      Holds es ((m.data db).filter (fun r => r.version.isSome)) (dbDocs X db m) := by
  obtain ⟨ops, arc', h1, h2⟩ := generate_first hm X maxDocs (es := []) latestOk_nil rfl (ES.arcStatus ([] : ES P))
    (fun id h => absurd (latestOf_nil id) h)
  unfold sync syncOps
  cases hd : hasData db m with
  | true =>
    have : syncScope db false m ([] : ES P) = .ok (some (fun r => r.version.isSome, none)) := rfl
    simp only [Bool.not_true, Bool.false_eq_true, if_false, this, h1]
    exact ⟨_, rfl, h2⟩
  | false =>
    rw [filter_hasData hd]
    exact ⟨[], rfl, latestOk_nil, by simp, fun _ _ => rfl, by simp [ES.archived]⟩

/-! ## Deleting the archives -/

theorem deleteArcs_docs (es : ES P) : ES.docs es.deleteArcs .latest = es.docs .latest := by
  unfold ES.docs ES.deleteArcs
  congr 1
  induction es with
  | nil => rfl
  | cons x es ih =>
    obtain ⟨ix, docs⟩ := x
    by_cases h : ix = .latest
    · subst h; simp [aget_cons]
    · have h' : ¬ Ix.latest = ix := fun e => h e.symm
      rw [List.filter_cons_of_neg (by simpa using h), aget_cons, ih]
      simp [h']

theorem deleteArcs_archived (es : ES P) : es.deleteArcs.archived = [] := by
  unfold ES.archived ES.deleteArcs
  rw [List.flatMap_eq_nil_iff]
  rintro ⟨ix, docs⟩ hx
  have := (List.mem_filter.1 hx).2
  simp only [decide_eq_true_eq] at this
  subst this; rfl

theorem LatestOk.deleteArcs {es : ES P} (h : LatestOk es) : LatestOk es.deleteArcs := by
  refine ⟨(List.Sublist.map _ List.filter_sublist).nodup h.indices, ?_, ?_⟩
  · rw [deleteArcs_docs]; exact h.nodup
  · rw [deleteArcs_docs]; exact h.hasId

theorem deleteArcs_latestOf (es : ES P) (id : PyStr) : es.deleteArcs.latestOf id = es.latestOf id := by
  unfold ES.latestOf
  rw [deleteArcs_docs]

theorem deleteArcs_arcStatus (es : ES P) : es.deleteArcs.arcStatus = (0, 0) := by
  have : es.deleteArcs.arcs = [] := by
    unfold ES.arcs ES.deleteArcs
    rw [List.filterMap_eq_nil_iff]
    rintro ⟨ix, docs⟩ hx
    have := (List.mem_filter.1 hx).2
    simp only [decide_eq_true_eq] at this
    subst this; rfl
  unfold ES.arcStatus
  rw [this]; rfl

/-! ## Only the archives -/

/-- The archive indices. -/
def ES.onlyArcs (es : ES P) : ES P := es.filter (fun x => decide (x.1 ≠ .latest))

theorem archived_onlyArcs (es : ES P) : es.archived = es.onlyArcs.archived := by
  induction es with
  | nil => rfl
  | cons x es ih =>
    obtain ⟨ix, docs⟩ := x
    unfold ES.onlyArcs ES.archived at *
    cases ix with
    | latest => simpa using ih
    | arc n => simpa using ih

theorem aset_filter {k : Ix} (h : k ≠ .latest) (v : Index P) (es : ES P) :
    ES.onlyArcs (aset k v es) = aset k v es.onlyArcs := by
  induction es with
  | nil => simp [aset, ES.onlyArcs, h]
  | cons x es ih =>
    obtain ⟨ix, docs⟩ := x
    unfold ES.onlyArcs at *
    by_cases hk : k = ix
    · subst hk; simp [aset, h]
    · by_cases hl : ix = .latest
      · subst hl; simpa [aset, hk] using ih
      · simpa [aset, hk, hl] using ih

theorem aset_latest (v : Index P) (es : ES P) : ES.onlyArcs (aset Ix.latest v es) = es.onlyArcs := by
  induction es with
  | nil => simp [aset, ES.onlyArcs]
  | cons x es ih =>
    obtain ⟨ix, docs⟩ := x
    unfold ES.onlyArcs at *
    by_cases hk : Ix.latest = ix
    · subst hk; simp [aset]
    · have hl : ix ≠ .latest := fun e => hk e.symm
      simpa [aset, hk, hl] using ih

theorem onlyArcs_docs {k : Ix} (h : k ≠ .latest) (es : ES P) : ES.docs es.onlyArcs k = es.docs k := by
  unfold ES.docs ES.onlyArcs
  congr 1
  induction es with
  | nil => rfl
  | cons x es ih =>
    obtain ⟨ix, docs⟩ := x
    by_cases hl : ix = .latest
    · subst hl
      rw [List.filter_cons_of_neg (by simp), ih, aget_cons, if_neg h]
    · rw [List.filter_cons_of_pos (by simpa using hl), aget_cons, aget_cons, ih]

theorem apply_onlyArcs (op : BulkOp P) (es : ES P) :
    ES.onlyArcs (BulkOp.apply es op) = if op.ix = .latest then es.onlyArcs else BulkOp.apply es.onlyArcs op := by
  by_cases hl : op.ix = .latest
  · rw [if_pos hl]
    cases op with
    | index ix docId doc => cases hl; exact aset_latest _ _
    | delete ix docId => cases hl; exact aset_latest _ _
  · rw [if_neg hl]
    cases op with
    | index ix docId doc =>
      have h : ix ≠ .latest := hl
      simp only [BulkOp.apply]
      rw [aset_filter h, onlyArcs_docs h]
    | delete ix docId =>
      have h : ix ≠ .latest := hl
      simp only [BulkOp.apply]
      rw [aset_filter h, onlyArcs_docs h]

theorem applyOps_onlyArcs : ∀ (ops : List (BulkOp P)) (es : ES P),
    ES.onlyArcs (es.applyOps ops) = ES.applyOps es.onlyArcs (ops.filter (fun op => decide (op.ix ≠ .latest)))
  | [], _ => rfl
  | op :: ops, es => by
    rw [applyOps_cons, applyOps_onlyArcs ops, apply_onlyArcs]
    by_cases h : op.ix = .latest
    · rw [if_pos h, List.filter_cons_of_neg (by simpa using h)]
    · rw [if_neg h, List.filter_cons_of_pos (by simpa using h), applyOps_cons]

theorem applyOps_arcs_latest : ∀ (ops : List (BulkOp P)) (es : ES P), (∀ op ∈ ops, op.ix ≠ .latest) →
    ES.docs (es.applyOps ops) .latest = es.docs .latest
  | [], _, _ => rfl
  | op :: ops, es, h => by
    rw [applyOps_cons, applyOps_arcs_latest ops _ (fun o ho => h o (List.mem_cons_of_mem _ ho))]
    have := h op List.mem_cons_self
    cases op with
    | index ix docId doc =>
      have this : ix ≠ .latest := this
      simp only [BulkOp.apply, docs_aset]
      rw [if_neg (fun e => this e.symm)]
    | delete ix docId =>
      have this : ix ≠ .latest := this
      simp only [BulkOp.apply, docs_aset]
      rw [if_neg (fun e => this e.symm)]

/-! ## Nothing new -/

/-- The document starts or ends after `after`. -/
def Doc.newer (after : Option Int) (d : Doc P) : Prop :=
  gtAfter after d.gte = true ∨ ∃ e, d.lt = some e ∧ gtAfter after e = true

theorem newer_written {after : Option Int} : ∀ {D : List (Doc P)} {d : Doc P}, d ∈ D → GoodDocs D → d.newer after →
    d ∈ toArchive after D ∨ latestAct after D = .put d
  | [], d, hd, _, _ => by cases hd
  | x :: rest, d, hd, hg, hn => by
    rcases List.mem_cons.1 hd with rfl | hd'
    · rw [toArchive]
      cases hlt : d.lt with
      | none =>
        have hr : rest = [] := by
          cases rest with
          | nil => rfl
          | cons y r =>
            obtain ⟨e, he, _⟩ := (List.pairwise_cons.1 hg.pair).1 y List.mem_cons_self
            rw [hlt] at he; cases he
        subst hr
        have hgt : gtAfter after d.gte = true := by
          rcases hn with h | ⟨e, he, _⟩
          · exact h
          · rw [hlt] at he; cases he
        exact .inr (by simp [latestAct, hlt, hgt])
      | some e =>
        refine .inl ?_
        have : (gtAfter after d.gte || gtAfter after e) = true := by
          rcases hn with h | ⟨e', he, h⟩
          · simp [h]
          · rw [hlt] at he; cases he; simp [h]
        simp [this]
    · have ih := newer_written hd' hg.tail hn
      have hact : latestAct after (x :: rest) = latestAct after rest := by
        cases rest with
        | nil => cases hd'
        | cons y r => rfl
      rw [hact]
      rcases ih with h | h
      · refine .inl ?_
        rw [toArchive]
        have hite : ∀ (c : Prop) [Decidable c] (l l' : List (Doc P)), d ∈ l → d ∈ l' → d ∈ if c then l else l' := by
          intro c _ l l' h1 h2; split <;> assumption
        exact hite _ _ _ h (hite _ _ _ (List.mem_cons_of_mem _ h) h)
      · exact .inr h

theorem rvOps_nothing (maxDocs : Nat) {after : Option Int} {id : PyStr} : ∀ {rvs : List (RecordVersion P)} {arc : Nat × Nat},
    (∀ d ∈ createDocs rvs, ¬ d.newer after) → rvOps maxDocs after id arc rvs = ([], arc)
  | [], _, _ => rfl
  | rv :: rest, arc, h => by
    have h0 := h _ List.mem_cons_self
    have h1 : gtAfter after rv.version = false := by
      by_contra hc
      exact h0 (.inl (by simpa [RecordVersion.createDoc] using hc))
    have ih := rvOps_nothing maxDocs (id := id) (arc := arc) (fun d hd => h d (List.mem_cons_of_mem _ hd))
    simp only [rvOps, h1, Bool.false_and, Bool.false_eq_true, if_false]
    cases he : rv.versionEnd rest.head? with
    | none => exact ih
    | some e =>
      have h2 : gtAfter after e = false := by
        by_contra hc
        exact h0 (.inr ⟨e, by simpa [RecordVersion.createDoc] using he, by simpa using hc⟩)
      simp only [h2, Bool.false_eq_true, if_false]
      exact ih

theorem generateOps_nothing (X : Parser P) (maxDocs : Nat) (opts : List (Int × ParsingOptions)) (after : Option Int) :
    ∀ (rs : List MongoRecord) (arc : Nat × Nat),
      (∀ r ∈ rs, ∃ rvs, build X r opts = .ok rvs ∧ rvs ≠ [] ∧ ∀ d ∈ createDocs rvs, ¬ d.newer after) →
      generateOps X maxDocs opts after arc rs = .ok ([], arc)
  | [], _, _ => rfl
  | r :: rs, arc, h => by
    obtain ⟨rvs, h1, h2, h3⟩ := h r List.mem_cons_self
    have ih := generateOps_nothing X maxDocs opts after rs arc (fun r hr => h r (List.mem_cons_of_mem _ hr))
    cases rvs with
    | nil => exact absurd rfl h2
    | cons rv rvs =>
      simp only [generateOps, h1, rvOps_nothing maxDocs h3, ih]
      rfl

/-- What is selected by a later sync was selected by an earlier one. -/
theorem syncScope_spec {es : ES P} {resync : Bool} {x} (hd : hasData db m = true)
    (h : syncScope db resync m es = .ok x) :
    (x = none ∧ resync = false ∧ ∃ e c, es.version = some e ∧ getCommittedVersion db m = some c ∧ c ≤ e) ∨
    ∃ sel, x = some (sel, if resync then none else es.version) ∧ (∀ r, sel r = true → r.version.isSome = true) ∧
      ((resync = true ∨ es.version = none) → ∀ r, r.version.isSome = true → sel r = true) ∧
      ∀ e, resync = false → es.version = some e →
        (sel = (fun r => r.version.isSome) ∧ (akeys (committedOptionsOf db m)).any (fun v => decide (v > e)) = true) ∨
        (sel = newerThan e ∧ (akeys (committedOptionsOf db m)).any (fun v => decide (v > e)) = false) := by
  unfold syncScope at h
  have hnew : ∀ e r, newerThan e r = true → r.version.isSome = true := by
    intro e r h
    unfold newerThan at h
    cases hv : r.version with
    | none => rw [hv] at h; cases h
    | some v => rfl
  cases resync with
  | true =>
    simp only [if_true] at h
    cases h
    exact .inr ⟨_, rfl, fun _ h => h, fun _ _ h => h, by simp⟩
  | false =>
    simp only [Bool.false_eq_true, if_false] at h
    cases hv : es.version with
    | none =>
      rw [hv] at h
      cases h
      exact .inr ⟨_, by simp, fun _ h => h, fun _ _ h => h, by simp⟩
    | some e =>
      rw [hv] at h
      dsimp only at h
      cases hc : getCommittedVersion db m with
      | none => rw [hc] at h; cases h
      | some c =>
        rw [hc] at h
        dsimp only at h
        split at h
        · cases h; exact .inl ⟨rfl, rfl, e, c, rfl, rfl, by omega⟩
        · split at h
          · rename_i ho
            cases h
            refine .inr ⟨_, by simp, fun _ h => h, fun _ _ h => h, ?_⟩
            intro e' _ he'; cases he'; exact .inl ⟨rfl, ho⟩
          · rename_i ho
            cases h
            refine .inr ⟨_, by simp, hnew e, by simp, ?_⟩
            intro e' _ he'; cases he'; exact .inr ⟨rfl, by simpa using ho⟩

/-- After a sync another one has nothing to do. -/
theorem sync_twice (hm : DbOk db m) (X : Parser P) (maxDocs : Nat) {resync : Bool} {es es' : ES P} (hok : LatestOk es)
    (hs : sync X maxDocs db resync m es = .ok es') : syncOps X maxDocs db false m es' = .ok (es', []) := by
  unfold sync at hs
  cases hso : syncOps X maxDocs db resync m es with
  | error e => rw [hso] at hs; cases hs
  | ok r =>
    obtain ⟨es0, ops⟩ := r
    rw [hso] at hs
    simp only [Except.ok.injEq] at hs
    have hso' := hso
    unfold syncOps at hso
    cases hd : hasData db m with
    | false =>
      rw [hd] at hso
      simp only [Bool.not_false, if_true, Except.ok.injEq, Prod.mk.injEq] at hso
      obtain ⟨rfl, rfl⟩ := hso
      subst hs
      unfold syncOps
      rw [hd]; rfl
    | true =>
      simp only [hd, Bool.not_true, Bool.false_eq_true, if_false] at hso
      cases hsc : syncScope db resync m es with
      | error e => rw [hsc] at hso; cases hso
      | ok x =>
        rw [hsc] at hso
        rcases syncScope_spec hd hsc with ⟨rfl, rfl, _⟩ | ⟨sel, rfl, hsel, hall, hsome⟩
        · simp only [Except.ok.injEq, Prod.mk.injEq] at hso
          obtain ⟨rfl, rfl⟩ := hso
          subst hs
          exact hso'
        · dsimp only at hso
          obtain ⟨after, hafter⟩ : ∃ a, a = (if resync then none else es.version) := ⟨_, rfl⟩
          rw [← hafter] at hso
          obtain ⟨esb, hesb⟩ : ∃ a, a = (if resync then es.deleteArcs else es) := ⟨_, rfl⟩
          rw [← hesb] at hso
          have hokb : LatestOk esb := by rw [hesb]; split; exact hok.deleteArcs; exact hok
          have hmem : ∀ {r}, r ∈ (m.data db).filter sel ↔ r ∈ m.data db ∧ sel r = true := fun {r} => List.mem_filter
          obtain ⟨ops', arc', g1, g2, g3, g4, _⟩ := generateOps_effect X maxDocs (committedOptionsOf db m) after
            ((m.data db).filter sel) esb.arcStatus esb hokb ((List.Sublist.map _ List.filter_sublist).nodup hm.nodup)
            (fun r hr => by
              obtain ⟨rvs, ha, hb, _⟩ := hm.build X (hmem.1 hr).1 (hsel r (hmem.1 hr).2)
              exact ⟨rvs, ha, hb⟩)
          rw [g1] at hso
          simp only [Except.ok.injEq, Prod.mk.injEq] at hso
          obtain ⟨rfl, rfl⟩ := hso
          subst hs
          have hdocs : ∀ r ∈ m.data db, sel r = true → docsOf X (committedOptionsOf db m) r = dbDocs X db m r := by
            intro r hr hs
            obtain ⟨rvs, ha, _, hc⟩ := hm.build X hr (hsel r hs)
            simp [docsOf, ha, hc]
          have hwr : ∀ r ∈ m.data db, sel r = true → ∀ d ∈ dbDocs X db m r, d.newer after → d ∈ (esb.applyOps ops').all := by
            intro r hr hs d hd hn
            rw [mem_all g2]
            rcases newer_written hd (hm.good X r.id) hn with h | h
            · refine .inr (g3.mem_iff.2 (List.mem_append_right _ ?_))
              exact List.mem_flatMap.2 ⟨r, hmem.2 ⟨hr, hs⟩, by rw [hdocs r hr hs]; exact h⟩
            · refine .inl ⟨r.id, ?_⟩
              rw [g4 r (hmem.2 ⟨hr, hs⟩), hdocs r hr hs, h]; rfl
          by_cases hnew : ∃ r ∈ m.data db, sel r = true ∧ ∃ d ∈ dbDocs X db m r, d.newer after
          · -- something has been written
            obtain ⟨r1, hr1, hs1, d1, hd1, hn1⟩ := hnew
            have hm1 := hwr r1 hr1 hs1 d1 hd1 hn1
            cases hv : (esb.applyOps ops').version with
            | none =>
              have := version_none.1 hv
              rw [this] at hm1; cases hm1
            | some e' =>
              have hle := (version_some hv).1
              have hgt : ∀ x, gtAfter (some e') x = true → gtAfter after x = true := by
                intro x hx
                cases ha : after with
                | none => rfl
                | some e =>
                  simp only [gtAfter, decide_eq_true_eq] at hx ⊢
                  have hf := (hm.good X r1.id).fields d1 hd1
                  have := hle d1 hm1
                  rw [ha] at hn1
                  rcases hn1 with h | ⟨f, hf1, h⟩
                  · simp only [gtAfter, decide_eq_true_eq] at h
                    rw [hf.1] at this; omega
                  · simp only [gtAfter, decide_eq_true_eq] at h
                    have := this.2 f (by rw [hf.2]; exact hf1)
                    omega
              have hold : ∀ r ∈ m.data db, sel r = true → ∀ d ∈ dbDocs X db m r, ¬ d.newer (some e') := by
                intro r hr hs d hd hn
                have hf := (hm.good X r.id).fields d hd
                have hn' : d.newer after := by
                  rcases hn with h | ⟨f, h1, h2⟩
                  · exact .inl (hgt _ h)
                  · exact .inr ⟨f, h1, hgt _ h2⟩
                have := hle d (hwr r hr hs d hd hn')
                rcases hn with h | ⟨f, h1, h2⟩
                · simp only [gtAfter, decide_eq_true_eq] at h
                  rw [hf.1] at this; omega
                · simp only [gtAfter, decide_eq_true_eq] at h2
                  have := this.2 f (by rw [hf.2]; exact h1)
                  omega
              unfold syncOps
              simp only [hd, Bool.not_true, Bool.false_eq_true, if_false]
              obtain ⟨r0, hr0, hv0⟩ := List.any_eq_true.1 hd
              obtain ⟨v0, hv0⟩ := Option.isSome_iff_exists.1 hv0
              obtain ⟨c, hc, _⟩ := record_le_committed hr0 hv0
              cases hsc2 : syncScope db false m (esb.applyOps ops') with
              | error e =>
                exfalso
                unfold syncScope at hsc2
                simp only [Bool.false_eq_true, if_false, hv, hc] at hsc2
                split at hsc2
                · cases hsc2
                · split at hsc2 <;> cases hsc2
              | ok x2 =>
                rcases syncScope_spec hd hsc2 with ⟨rfl, _, _⟩ | ⟨sel2, rfl, hsel2, _, hsome2⟩
                · rfl
                · dsimp only
                  have himp : ∀ r, sel2 r = true → sel r = true := by
                    intro r hr2
                    cases hrs : resync with
                    | true => exact hall (.inl hrs) r (hsel2 r hr2)
                    | false =>
                      cases hve : es.version with
                      | none => exact hall (.inr hve) r (hsel2 r hr2)
                      | some e =>
                        have hee : e ≤ e' := by
                          have ha : after = some e := by rw [hafter, hrs, hve]; rfl
                          have := hgt (e' + 1) (by simp [gtAfter]; omega)
                          by_contra hlt
                          have hf := (hm.good X r1.id).fields d1 hd1
                          have h3 := hle d1 hm1
                          rw [ha] at hn1
                          rcases hn1 with h | ⟨f, hf1, h⟩
                          · simp only [gtAfter, decide_eq_true_eq] at h
                            rw [hf.1] at h3; omega
                          · simp only [gtAfter, decide_eq_true_eq] at h
                            have := h3.2 f (by rw [hf.2]; exact hf1)
                            omega
                        rcases hsome e hrs hve with ⟨h1, _⟩ | ⟨h1, h2⟩
                        · rw [h1]; exact hsel2 r hr2
                        · rcases hsome2 e' rfl hv with ⟨_, h4⟩ | ⟨h3, _⟩
                          · exfalso
                            rw [List.any_eq_true] at h4
                            obtain ⟨w, hw1, hw2⟩ := h4
                            rw [List.any_eq_false] at h2
                            have := h2 w hw1
                            simp only [decide_eq_true_eq] at this hw2
                            omega
                          · rw [h3] at hr2
                            rw [h1]
                            unfold newerThan at hr2 ⊢
                            cases hrv : r.version with
                            | none => rw [hrv] at hr2; cases hr2
                            | some v =>
                              rw [hrv] at hr2
                              simp only [decide_eq_true_eq] at hr2 ⊢
                              omega
                  have hg := generateOps_nothing X maxDocs (committedOptionsOf db m) (some e') ((m.data db).filter sel2)
                    (ES.arcStatus (esb.applyOps ops')) (fun r hr => by
                      have hr' := List.mem_filter.1 hr
                      obtain ⟨rvs, ha, hb, hc⟩ := hm.build X hr'.1 (hsel2 r hr'.2)
                      refine ⟨rvs, ha, hb, fun d hd => hold r hr'.1 (himp r hr'.2) d (by rw [hc]; exact hd)⟩)
                  simp only [hv, Bool.false_eq_true, if_false, hg]
          · -- nothing has been written
            have hg := generateOps_nothing X maxDocs (committedOptionsOf db m) after ((m.data db).filter sel)
              esb.arcStatus (fun r hr => by
                obtain ⟨rvs, ha, hb, hc⟩ := hm.build X (hmem.1 hr).1 (hsel r (hmem.1 hr).2)
                refine ⟨rvs, ha, hb, fun d hd hn => hnew ⟨r, (hmem.1 hr).1, (hmem.1 hr).2, d, by rw [hc]; exact hd, hn⟩⟩)
            rw [hg] at g1
            simp only [Except.ok.injEq, Prod.mk.injEq] at g1
            obtain ⟨rfl, _⟩ := g1
            cases hrs : resync with
            | false =>
              have : esb = es := by rw [hesb, hrs]; rfl
              subst this
              rw [hrs] at hso'
              exact hso'
            | true =>
              exfalso
              obtain ⟨r0, hr0, hv0⟩ := List.any_eq_true.1 hd
              obtain ⟨rvs, _, hb, hc⟩ := hm.build X hr0 hv0
              cases rvs with
              | nil => exact hb rfl
              | cons rv rvs =>
                refine hnew ⟨r0, hr0, hall (.inl hrs) r0 hv0, rv.createDoc rvs.head?, ?_, .inl ?_⟩
                · rw [hc]; exact List.mem_cons_self
                · rw [hafter, hrs]; rfl

end
end Splitgill

namespace Splitgill

section
variable {P : Type} {X : Parser P} {db : PyStr} {m : Mongo}

/-- The last database. -/
theorem runSyncs_timeline {extra : Int → Mongo → Prop}
    (hx : ∀ t m, extra t m → NoUpdateDelete db t m ∧ PendingOld db (some t) m) (maxDocs : Nat) :
    ∀ (ms : List Mongo) (m : Mongo) (es : ES P), Holds es (m.data db) (dbDocs X db m) → Timeline X db extra (m :: ms) →
      ∃ es', runSyncs X maxDocs db es ms = .ok es' ∧
        Holds es' (((m :: ms).getLast (by simp)).data db) (dbDocs X db ((m :: ms).getLast (by simp)))
  | [], m, es, h, _ => ⟨es, rfl, h⟩
  | m' :: ms, m, es, h, ht => by
    obtain ⟨hm, ⟨t, hl, he⟩, hr⟩ := ht
    have hm' : DbOk db m' := by
      cases ms with
      | nil => exact hr
      | cons a b => exact hr.1
    obtain ⟨es1, h1, h2⟩ := sync_next hl hm hm' (hx t m' he).1 (hx t m' he).2 maxDocs h
    obtain ⟨es2, h3, h4⟩ := runSyncs_timeline hx maxDocs ms m' es1 h2 hr
    refine ⟨es2, by simp only [runSyncs, h1, h3], ?_⟩
    simpa using h4

theorem Timeline.dbOk {extra : Int → Mongo → Prop} : ∀ {ms : List Mongo}, Timeline X db extra ms → ∀ m ∈ ms, DbOk db m
  | [], _, m, h => by cases h
  | [x], ht, m, h => by rw [List.mem_singleton] at h; subst h; exact ht
  | x :: y :: rest, ht, m, h => by
    rcases List.mem_cons.1 h with rfl | h
    · exact ht.1
    · exact Timeline.dbOk ht.2.2 m h

/-- All syncs from the first one. -/
theorem runSyncs_all {extra : Int → Mongo → Prop}
    (hx : ∀ t m, extra t m → NoUpdateDelete db t m ∧ PendingOld db (some t) m) (maxDocs : Nat) (m : Mongo)
    (ms : List Mongo) (ht : Timeline X db extra (m :: ms)) (hp : PendingOld db none m) :
    ∃ es, runSyncs X maxDocs db [] (m :: ms) = .ok es ∧
      Holds es (((m :: ms).getLast (by simp)).data db) (dbDocs X db ((m :: ms).getLast (by simp))) := by
  obtain ⟨es1, h1, h2⟩ := sync_first (ht.dbOk m List.mem_cons_self) X maxDocs hp
  obtain ⟨es2, h3, h4⟩ := runSyncs_timeline hx maxDocs ms m es1 h2 ht
  exact ⟨es2, by simp only [runSyncs, h1, h3], h4⟩

theorem NoPending.old (h : NoPending db m) (t : Option Int) : PendingOld db t m :=
  fun r hr hv => absurd hv (h r hr)

theorem IndexesRecords.find {rs : List MongoRecord} {es : ES P} (h : IndexesRecords X db m rs es) {r : MongoRecord}
    (hr : r ∈ rs) {v : Int} (hv : Alive (histOf (m.data db) r.id) v) :
    ∃ d, d.covers v ∧ ((some r.id, d) ∈ es.docs .latest ∨ d ∈ es.archived) := by
  obtain ⟨docs, h1, _, _, h4, h5⟩ := h
  have hne : histOf (m.data db) r.id ≠ [] := by
    obtain ⟨d, ⟨w, hw, _⟩, _⟩ := hv
    intro he; rw [he] at hw; cases hw
  obtain ⟨d, hd, hc⟩ := ((h1 r hr hne).covered v).2 hv
  refine ⟨d, hc, ?_⟩
  cases hlt : d.lt with
  | none => exact .inl ((h4 _ _).2 ⟨r, hr, rfl, hd, hlt⟩)
  | some e => exact .inr (h5.mem_iff.2 (List.mem_flatMap.2 ⟨r, hr, List.mem_filter.2 ⟨hd, by simp [hlt]⟩⟩))

end
end Splitgill
