import Verif.Proof.Search
import Verif.Spec.Each
/-!
# Lemmas: one record in the indices, whatever happens to others
-/

namespace Splitgill

section
variable {P : Type} {X : Parser P} {db : PyStr} {m : Mongo}

/-- Indices with documents of this kind only, not newer than `t`. -/
structure SoundIndices (t : Int) (es : ES P) : Prop where
  ok : LatestOk es
  fields : ∀ d ∈ es.all, d.version = d.gte ∧ d.next = d.lt
  latest : ∀ id d, es.latestOf id = some d → d.id = id ∧ d.lt = none
  archived : ∀ d ∈ es.archived, d.lt ≠ none
  old : ∀ d ∈ es.all, d.version ≤ t ∧ ∀ n, d.next = some n → n ≤ t

/-- What is in the indices of one record. -/
structure HoldsFor (es : ES P) (id : PyStr) (D : List (Doc P)) : Prop where
  latest : es.latestOf id = openOf D
  archived : (es.archived.filter (fun d => decide (d.id = id))).Perm (closedOf D)

theorem latestAct_put {after : Option Int} : ∀ {D : List (Doc P)} {d : Doc P}, latestAct after D = .put d → d ∈ D ∧ d.lt = none
  | [], _, h => by cases h
  | [x], d, h => by
    simp only [latestAct] at h
    cases hl : x.lt with
    | none =>
      rw [hl] at h
      dsimp only at h
      split at h
      · cases h; exact ⟨List.mem_singleton.2 rfl, hl⟩
      · cases h
    | some e =>
      rw [hl] at h
      dsimp only at h
      split at h <;> cases h
  | _ :: y :: rest, d, h => by
    obtain ⟨h1, h2⟩ := latestAct_put (D := y :: rest) h
    exact ⟨List.mem_cons_of_mem _ h1, h2⟩

theorem toArchive_mem {after : Option Int} {D : List (Doc P)} (h : GoodDocs D) {d : Doc P} (hd : d ∈ toArchive after D) :
    d ∈ D ∧ d.lt ≠ none := by
  have := (archive_step after D h).mem_iff.1 (List.mem_append_right _ hd)
  obtain ⟨h1, h2⟩ := List.mem_filter.1 this
  exact ⟨h1, fun e => by rw [e] at h2; cases h2⟩

theorem DbOk.docId (hm : DbOk db m) (X : Parser P) {id : PyStr} {d : Doc P}
    (hd : d ∈ recDocs X (committedOptionsOf db m) (m.data db) id) : d.id = id := by
  have hne : histOf (m.data db) id ≠ [] := by
    intro he; rw [recDocs_nil he] at hd; cases hd
  obtain ⟨r, _, rfl⟩ := List.mem_map.1 (mem_ids_of_hist hne)
  exact ((hm.partitions X hne).fields d hd).1

/-- What a sync does, for any contents of the indices. -/
theorem sync_effect (hm : DbOk db m) (X : Parser P) (maxDocs : Nat) {es : ES P} (hok : LatestOk es) :
    ∃ es' sel, sync X maxDocs db false m es = .ok es' ∧ LatestOk es' ∧
      es'.archived.Perm (es.archived ++ ((m.data db).filter sel).flatMap (fun r => toArchive es.version (dbDocs X db m r))) ∧
      (∀ r ∈ m.data db, sel r = true → es'.latestOf r.id = (latestAct es.version (dbDocs X db m r)).on (es.latestOf r.id)) ∧
      (∀ id, id ∉ ((m.data db).filter sel).map MongoRecord.id → es'.latestOf id = es.latestOf id) ∧
      (∀ r ∈ m.data db, sel r = false → r.version = none ∨ trunc es.version (dbDocs X db m r) = dbDocs X db m r) := by
  have hsame : (∀ r ∈ m.data db, r.version = none ∨ trunc es.version (dbDocs X db m r) = dbDocs X db m r) →
      ∃ es' sel, Except.ok (ε := PyErr) es = .ok es' ∧ LatestOk es' ∧
      es'.archived.Perm (es.archived ++ ((m.data db).filter sel).flatMap (fun r => toArchive es.version (dbDocs X db m r))) ∧
      (∀ r ∈ m.data db, sel r = true → es'.latestOf r.id = (latestAct es.version (dbDocs X db m r)).on (es.latestOf r.id)) ∧
      (∀ id, id ∉ ((m.data db).filter sel).map MongoRecord.id → es'.latestOf id = es.latestOf id) ∧
      (∀ r ∈ m.data db, sel r = false → r.version = none ∨ trunc es.version (dbDocs X db m r) = dbDocs X db m r) := by
    intro ht
    exact ⟨es, fun _ => false, rfl, hok, by simp, fun _ _ h => (nomatch h), fun _ _ => rfl, fun r hr _ => ht r hr⟩
  have hgen : ∀ sel : MongoRecord → Bool, (∀ r ∈ m.data db, sel r = true → r.version.isSome = true) →
      (∀ r ∈ m.data db, sel r = false → r.version = none ∨ trunc es.version (dbDocs X db m r) = dbDocs X db m r) →
      ∃ ops arc', generateOps X maxDocs (committedOptionsOf db m) es.version es.arcStatus ((m.data db).filter sel) =
        .ok (ops, arc') ∧
      ∃ es' sel, Except.ok (ε := PyErr) (es.applyOps ops) = .ok es' ∧ LatestOk es' ∧
      es'.archived.Perm (es.archived ++ ((m.data db).filter sel).flatMap (fun r => toArchive es.version (dbDocs X db m r))) ∧
      (∀ r ∈ m.data db, sel r = true → es'.latestOf r.id = (latestAct es.version (dbDocs X db m r)).on (es.latestOf r.id)) ∧
      (∀ id, id ∉ ((m.data db).filter sel).map MongoRecord.id → es'.latestOf id = es.latestOf id) ∧
      (∀ r ∈ m.data db, sel r = false → r.version = none ∨ trunc es.version (dbDocs X db m r) = dbDocs X db m r) := by
    intro sel h1 h2
    have hmem : ∀ {r}, r ∈ (m.data db).filter sel ↔ r ∈ m.data db ∧ sel r = true := fun {r} => List.mem_filter
    obtain ⟨ops, arc', g1, g2, g3, g4, g5⟩ := generateOps_effect X maxDocs (committedOptionsOf db m) es.version ((m.data db).filter sel)
      es.arcStatus es hok ((List.Sublist.map _ List.filter_sublist).nodup hm.nodup) (fun r hr => by
        obtain ⟨rvs, ha, hb, _⟩ := hm.build X (hmem.1 hr).1 (h1 r (hmem.1 hr).1 (hmem.1 hr).2)
        exact ⟨rvs, ha, hb⟩)
    have hd : ∀ r ∈ m.data db, sel r = true → docsOf X (committedOptionsOf db m) r = dbDocs X db m r := by
      intro r hr hs
      obtain ⟨rvs, ha, _, hc⟩ := hm.build X hr (h1 r hr hs)
      simp [docsOf, ha, hc]
    refine ⟨ops, arc', g1, es.applyOps ops, sel, rfl, g2, ?_, fun r hr hs => ?_, g5, h2⟩
    · refine g3.trans (List.Perm.of_eq ?_)
      congr 1
      apply List.flatMap_congr
      intro r hr
      rw [hd r (hmem.1 hr).1 (hmem.1 hr).2]
    · rw [g4 r (hmem.2 ⟨hr, hs⟩), hd r hr hs]
  unfold sync syncOps
  by_cases hd : hasData db m = true
  · simp only [hd, Bool.not_true, Bool.false_eq_true, if_false, syncScope]
    have hnone : ∀ r ∈ m.data db, (r.version.isSome = false) →
        r.version = none ∨ trunc es.version (dbDocs X db m r) = dbDocs X db m r := fun r _ h => .inl (by simpa using h)
    cases hv : es.version with
    | none =>
      obtain ⟨ops, arc', h1, h2⟩ := hgen (fun r => r.version.isSome) (fun _ _ h => h) hnone
      rw [hv] at h1 h2
      simp only [h1]
      exact h2
    | some e =>
      obtain ⟨r0, hr0, hv0⟩ := List.any_eq_true.1 hd
      obtain ⟨v0, hv0⟩ := Option.isSome_iff_exists.1 hv0
      obtain ⟨c, hc, _⟩ := record_le_committed hr0 hv0
      simp only [hc]
      by_cases hle : e ≥ c
      · rw [if_pos hle]
        rw [hv] at hsame
        refine hsame ?_
        intro r hr
        cases hrv : r.version with
        | none => exact .inl rfl
        | some v =>
          right
          apply hm.trunc_old X
          · intro w hw
            have h1 := hm.key_le hr hrv hw
            obtain ⟨c', h2, h3⟩ := record_le_committed hr hrv
            rw [hc] at h2; cases h2; omega
          · intro _ w hw
            obtain ⟨c', h2, h3⟩ := options_le_committed hw
            rw [hc] at h2; cases h2; omega
      · rw [if_neg hle]
        by_cases ho : (akeys (committedOptionsOf db m)).any (fun v => decide (v > e)) = true
        · rw [if_pos ho]
          obtain ⟨ops, arc', h1, h2⟩ := hgen (fun r => r.version.isSome) (fun _ _ h => h) hnone
          rw [hv] at h1 h2
          simp only [h1]
          exact h2
        · rw [if_neg ho]
          obtain ⟨ops, arc', h1, h2⟩ := hgen
            (newerThan e) (fun r _ h => by
              unfold newerThan at h
              cases hrv : r.version with
              | none => rw [hrv] at h; cases h
              | some v => rfl) (fun r hr hs => by
              cases hrv : r.version with
              | none => exact .inl rfl
              | some v =>
                right
                rw [newerThan, hrv] at hs
                simp only [decide_eq_false_iff_not] at hs
                rw [hv]
                apply hm.trunc_old X
                · intro w hw
                  have := hm.key_le hr hrv hw
                  omega
                · intro _ w hw
                  simp only [List.any_eq_true, decide_eq_true_eq, not_exists, not_and] at ho
                  have := ho w hw
                  omega)
          rw [hv] at h1 h2
          simp only [h1]
          exact h2
  · simp only [hd, Bool.not_false, if_true]
    refine hsame (fun r hr => ?_)
    cases hrv : r.version with
    | none => exact .inl rfl
    | some v => exact absurd (List.any_eq_true.2 ⟨r, hr, by simp [hrv]⟩) hd

theorem mem_flatMap_one {α : Type} {f : PyStr → List α} {p : α → PyStr} (hp : ∀ id, ∀ x ∈ f id, p x = id) (id : PyStr) :
    ∀ {l : List PyStr}, l.Nodup → (l.flatMap f).filter (fun x => decide (p x = id)) = if id ∈ l then f id else []
  | [], _ => rfl
  | a :: l, hn => by
    have hn' := List.nodup_cons.1 hn
    rw [List.flatMap_cons, List.filter_append, mem_flatMap_one hp id hn'.2]
    by_cases ha : id = a
    · subst ha
      rw [if_neg hn'.1, if_pos (by simp), List.append_nil, List.filter_eq_self.2]
      intro x hx
      simpa using hp id x hx
    · have : (f a).filter (fun x => decide (p x = id)) = [] := by
        rw [List.filter_eq_nil_iff]
        intro x hx
        simp only [decide_eq_true_eq]
        intro e
        exact ha (by rw [← e, hp a x hx])
      rw [this, List.nil_append]
      simp only [List.mem_cons, ha, false_or]

/-- All keys of the database are at most `t`. -/
def KeysUpTo (db : PyStr) (m : Mongo) (t : Int) : Prop :=
  ∀ id w, IsKey (histOf (m.data db) id) (committedOptionsOf db m) w → histOf (m.data db) id ≠ [] → w ≤ t

/-- What a sync that reads the records `sel` of `m` does to the indices. -/
structure SyncEffect (X : Parser P) (db : PyStr) (m : Mongo) (es es' : ES P) (sel : MongoRecord → Bool) : Prop where
  ok : LatestOk es'
  archived : es'.archived.Perm (es.archived ++ ((m.data db).filter sel).flatMap (fun r => toArchive es.version (dbDocs X db m r)))
  latest : ∀ r ∈ m.data db, sel r = true → es'.latestOf r.id = (latestAct es.version (dbDocs X db m r)).on (es.latestOf r.id)
  others : ∀ id, id ∉ ((m.data db).filter sel).map MongoRecord.id → es'.latestOf id = es.latestOf id
  rest : ∀ r ∈ m.data db, sel r = false → r.version = none ∨ trunc es.version (dbDocs X db m r) = dbDocs X db m r

theorem SyncEffect.each_raw (hm : DbOk db m) {es es' : ES P} {sel : MongoRecord → Bool} (he : SyncEffect X db m es es' sel) {s t : Int}
    (hs : SoundIndices s es) (hst : s ≤ t) (ht : KeysUpTo db m t) :
    SoundIndices t es' ∧
      ∀ id D, recDocs X (committedOptionsOf db m) (m.data db) id = D →
        (es.archived.filter (fun d => decide (d.id = id))).Perm (closedOf (trunc es.version D)) → NoPendingOf db id m →
        (es'.archived.filter (fun d => decide (d.id = id))).Perm (closedOf D) ∧
        (es'.latestOf id = (latestAct es.version D).on (es.latestOf id) ∨
          trunc es.version D = D ∧ es'.latestOf id = es.latestOf id) := by
  obtain ⟨h2, h3, h4, h5, h6⟩ := he
  have hmem : ∀ {r}, r ∈ (m.data db).filter sel ↔ r ∈ m.data db ∧ sel r = true := fun {r} => List.mem_filter
  have hn := hm.nodup
  have hsel : ∀ r ∈ m.data db, sel r = false → r.id ∉ ((m.data db).filter sel).map MongoRecord.id := by
    intro r hr hs hmm
    obtain ⟨r', hr', he⟩ := List.mem_map.1 hmm
    have h1 := findRecord_of_mem (c := m.data db) hn (hmem.1 hr').1
    have h2 := findRecord_of_mem (c := m.data db) hn hr
    rw [he, h2] at h1
    cases h1
    have := (hmem.1 hr').2
    rw [hs] at this; cases this
  -- where documents come from
  have harch : ∀ d ∈ es'.archived, d ∈ es.archived ∨ ∃ r ∈ m.data db, d ∈ dbDocs X db m r ∧ d.lt ≠ none := by
    intro d hd
    rcases List.mem_append.1 (h3.mem_iff.1 hd) with hd | hd
    · exact .inl hd
    · obtain ⟨r, hr, hd⟩ := List.mem_flatMap.1 hd
      obtain ⟨g1, g2⟩ := toArchive_mem (hm.good X r.id) hd
      exact .inr ⟨r, (hmem.1 hr).1, g1, g2⟩
  have hlat : ∀ id d, es'.latestOf id = some d → es.latestOf id = some d ∨ ∃ r ∈ m.data db, r.id = id ∧ d ∈ dbDocs X db m r ∧ d.lt = none := by
    intro id d hd
    by_cases hid : id ∈ ((m.data db).filter sel).map MongoRecord.id
    · obtain ⟨r, hr, rfl⟩ := List.mem_map.1 hid
      rw [h4 r (hmem.1 hr).1 (hmem.1 hr).2] at hd
      cases ha : latestAct es.version (dbDocs X db m r) with
      | put x =>
        rw [ha] at hd
        cases hd
        exact .inr ⟨r, (hmem.1 hr).1, rfl, latestAct_put ha⟩
      | remove => rw [ha] at hd; cases hd
      | leave => rw [ha] at hd; exact .inl hd
    · rw [h5 id hid] at hd; exact .inl hd
  have hall : ∀ d ∈ es'.all, d ∈ es.all ∨ ∃ r ∈ m.data db, d ∈ dbDocs X db m r := by
    intro d hd
    rcases (mem_all h2).1 hd with ⟨id, hd⟩ | hd
    · rcases hlat id d hd with hd | ⟨r, hr, _, hd, _⟩
      · exact .inl ((mem_all hs.ok).2 (.inl ⟨id, hd⟩))
      · exact .inr ⟨r, hr, hd⟩
    · rcases harch d hd with hd | ⟨r, hr, hd, _⟩
      · exact .inl ((mem_all hs.ok).2 (.inr hd))
      · exact .inr ⟨r, hr, hd⟩
  refine ⟨⟨h2, ?_, ?_, ?_, ?_⟩, ?_⟩
  · intro d hd
    rcases hall d hd with hd | ⟨r, hr, hd⟩
    · exact hs.fields d hd
    · exact (hm.good X r.id).fields d hd
  · intro id d hd
    rcases hlat id d hd with hd | ⟨r, hr, rfl, hd, hlt⟩
    · exact hs.latest id d hd
    · exact ⟨hm.docId X hd, hlt⟩
  · intro d hd
    rcases harch d hd with hd | ⟨r, hr, hd, hlt⟩
    · exact hs.archived d hd
    · exact hlt
  · intro d hd
    rcases hall d hd with hd | ⟨r, hr, hd⟩
    · obtain ⟨g1, g2⟩ := hs.old d hd
      exact ⟨by omega, fun n hn => by have := g2 n hn; omega⟩
    · have hne : histOf (m.data db) r.id ≠ [] := by
        intro he; rw [dbDocs, recDocs_nil he] at hd; cases hd
      have hk := hm.keys X hd
      have hf := (hm.good X r.id).fields d hd
      refine ⟨by rw [hf.1]; exact ht r.id _ hk.1 hne, fun n hn => ht r.id _ (hk.2 n (by rw [← hf.2]; exact hn)) hne⟩
  · intro id D hD hh hp
    have hids : ∀ id, ∀ x ∈ toArchive es.version (recDocs X (committedOptionsOf db m) (m.data db) id), x.id = id :=
      fun id x hx => hm.docId X (toArchive_mem (hm.good X id) hx).1
    have e : ((m.data db).filter sel).flatMap (fun r => toArchive es.version (dbDocs X db m r)) =
        (((m.data db).filter sel).map MongoRecord.id).flatMap
          (fun id => toArchive es.version (recDocs X (committedOptionsOf db m) (m.data db) id)) := by
      rw [List.flatMap_map]; rfl
    have hf := h3.filter (fun d => decide (d.id = id))
    rw [List.filter_append, e, mem_flatMap_one hids id ((List.Sublist.map _ List.filter_sublist).nodup hn)] at hf
    by_cases hid : id ∉ (m.data db).map MongoRecord.id
    · have hno : id ∉ ((m.data db).filter sel).map MongoRecord.id := fun h =>
        hid ((List.Sublist.map _ List.filter_sublist).subset h)
      rw [if_neg hno, List.append_nil] at hf
      rw [recDocs_nil (hist_none hid)] at hD
      subst hD
      exact ⟨hf.trans hh, .inr ⟨rfl, h5 _ hno⟩⟩
    obtain ⟨r, hr, rfl⟩ := List.mem_map.1 (not_not.1 hid)
    have hD : dbDocs X db m r = D := hD
    subst hD
    cases hsr : sel r with
    | true =>
      rw [if_pos (List.mem_map_of_mem (hmem.2 ⟨hr, hsr⟩))] at hf
      exact ⟨(hf.trans (hh.append_right _)).trans (archive_step _ _ (hm.good X r.id)), .inl (h4 r hr hsr)⟩
    | false =>
      rw [if_neg (hsel r hr hsr), List.append_nil] at hf
      have htr : trunc es.version (dbDocs X db m r) = dbDocs X db m r := (h6 r hr hsr).elim (fun e => absurd e (hp r hr rfl)) id
      rw [htr] at hh
      exact ⟨hf.trans hh, .inr ⟨htr, h5 _ (hsel r hr hsr)⟩⟩

/-- A sync, for one record: what is done in the archives and in the latest index. -/
theorem sync_each_raw (hm : DbOk db m) (X : Parser P) (maxDocs : Nat) {es : ES P} {s t : Int} (hs : SoundIndices s es) (hst : s ≤ t)
    (ht : KeysUpTo db m t) :
    ∃ es', sync X maxDocs db false m es = .ok es' ∧ SoundIndices t es' ∧
      ∀ id D, recDocs X (committedOptionsOf db m) (m.data db) id = D →
        (es.archived.filter (fun d => decide (d.id = id))).Perm (closedOf (trunc es.version D)) → NoPendingOf db id m →
        (es'.archived.filter (fun d => decide (d.id = id))).Perm (closedOf D) ∧
        (es'.latestOf id = (latestAct es.version D).on (es.latestOf id) ∨
          trunc es.version D = D ∧ es'.latestOf id = es.latestOf id) := by
  obtain ⟨es', sel, h1, h2, h3, h4, h5, h6⟩ := sync_effect hm X maxDocs hs.ok
  exact ⟨es', h1, SyncEffect.each_raw hm ⟨h2, h3, h4, h5, h6⟩ hs hst ht⟩

/-- A sync, for one record: the indices get what is missing of it. -/
theorem sync_each (hm : DbOk db m) (X : Parser P) (maxDocs : Nat) {es : ES P} {s t : Int} (hs : SoundIndices s es) (hst : s ≤ t)
    (ht : KeysUpTo db m t) :
    ∃ es', sync X maxDocs db false m es = .ok es' ∧ SoundIndices t es' ∧
      ∀ id D, recDocs X (committedOptionsOf db m) (m.data db) id = D → HoldsFor es id (trunc es.version D) →
        LastNotNew es.version D → NoPendingOf db id m → HoldsFor es' id D := by
  obtain ⟨es', h1, h2, h3⟩ := sync_each_raw hm X maxDocs hs hst ht
  refine ⟨es', h1, h2, fun id D hD hh hl hp => ?_⟩
  obtain ⟨g1, g2⟩ := h3 id D hD hh.archived hp
  refine ⟨?_, g1⟩
  rcases g2 with g2 | ⟨g2, g3⟩
  · rw [g2, hh.latest]
    exact latest_step _ _ (hD ▸ hm.good X id) hl
  · rw [g3, hh.latest, g2]

/-- The documents as they were at `t`, if they are in the indices, are those up to the version of the indices. -/
theorem trunc_version {t : Int} {es : ES P} (hs : SoundIndices t es) {D : List (Doc P)} (hgood : GoodDocs D)
    (hprev : ∀ d ∈ Splitgill.trunc (some t) D, d ∈ es.all) : Splitgill.trunc es.version D = Splitgill.trunc (some t) D := by
  cases hv : es.version with
  | none =>
    have := version_none.1 hv
    rw [trunc_none]
    symm
    rw [List.eq_nil_iff_forall_not_mem]
    intro d hd
    have := hprev d hd
    simp_all
  | some e =>
    obtain ⟨h1, d1, hd1, he1⟩ := version_some hv
    have het : e ≤ t := by
      obtain ⟨k1, k2⟩ := hs.old d1 hd1
      rcases he1 with he1 | he1
      · omega
      · exact k2 e he1
    unfold Splitgill.trunc
    apply List.filterMap_congr
    intro d hd
    have hf := hgood.fields d hd
    by_cases hg : t < d.gte
    · have : e < d.gte := by omega
      simp [truncDoc, gtAfter, hg, this]
    · cases hlt : d.lt with
      | none =>
        have : d ∈ Splitgill.trunc (some t) D := List.mem_filterMap.2 ⟨d, hd, by simp [truncDoc, gtAfter, hg, hlt]⟩
        have h2 := (h1 d (hprev d this)).1
        rw [hf.1] at h2
        have : ¬ e < d.gte := by omega
        simp [truncDoc, gtAfter, hg, hlt, this]
      | some f =>
        by_cases hft : t < f
        · have : { d with lt := none, next := none } ∈ Splitgill.trunc (some t) D :=
            List.mem_filterMap.2 ⟨d, hd, by simp [truncDoc, gtAfter, hg, hlt, hft]⟩
          have h2 := (h1 _ (hprev _ this)).1
          dsimp only at h2
          rw [hf.1] at h2
          have h3 : ¬ e < d.gte := by omega
          have h4 : e < f := by omega
          simp [truncDoc, gtAfter, hg, hlt, hft, h3, h4]
        · have : d ∈ Splitgill.trunc (some t) D :=
            List.mem_filterMap.2 ⟨d, hd, by simp [truncDoc, gtAfter, hg, hlt, hft]⟩
          have h2 := h1 d (hprev d this)
          rw [hf.1] at h2
          have h3 : ¬ e < d.gte := by omega
          have h4 : ¬ e < f := by
            have := h2.2 f (by rw [hf.2]; exact hlt)
            omega
          simp [truncDoc, gtAfter, hg, hlt, hft, h3, h4]

theorem lastNotNew_version {t : Int} {es : ES P} (hs : SoundIndices t es) {D : List (Doc P)} (hgood : GoodDocs D)
    (hprev : ∀ d ∈ Splitgill.trunc (some t) D, d ∈ es.all) (hlast : LastNotNew (some t) D) : LastNotNew es.version D := by
  have htr := trunc_version hs hgood hprev
  intro ha hb last hl
  rw [htr] at ha
  have hg := hlast ha hb last hl
  cases hv : es.version with
  | none =>
    rw [hv, trunc_none] at htr
    rw [← htr] at ha
    exact absurd rfl ha
  | some e =>
    have hlm := List.mem_of_getLast? hl
    have hgt : ¬ t < last.gte := by simpa [gtAfter] using hg
    have htd : ∃ d ∈ Splitgill.trunc (some t) D, d.gte = last.gte ∧ d.version = d.gte := by
      have hf := hgood.fields last hlm
      cases hlt : last.lt with
      | none => exact ⟨last, List.mem_filterMap.2 ⟨last, hlm, by simp [truncDoc, gtAfter, hgt, hlt]⟩, rfl, hf.1⟩
      | some f =>
        by_cases hft : t < f
        · exact ⟨{ last with lt := none, next := none },
            List.mem_filterMap.2 ⟨last, hlm, by simp [truncDoc, gtAfter, hgt, hlt, hft]⟩, rfl, hf.1⟩
        · exact ⟨last, List.mem_filterMap.2 ⟨last, hlm, by simp [truncDoc, gtAfter, hgt, hlt, hft]⟩, rfl, hf.1⟩
    obtain ⟨d, hd1, hd2, hd3⟩ := htd
    have := ((version_some hv).1 d (hprev d hd1)).1
    simp only [gtAfter, decide_eq_false_iff_not]
    omega

/-- What of a record is in the indices when the next sync begins. -/
theorem each_ready {t : Int} {m m' : Mongo} {id : PyStr} (h : LaterFor X db id t m m') (hm : DbOk db m) (hm' : DbOk db m')
    (hd : NoUpdateDeleteOf db id t m') {es : ES P} (hs : SoundIndices t es)
    (hh : HoldsFor es id (recDocs X (committedOptionsOf db m) (m.data db) id)) :
    HoldsFor es id (trunc es.version (recDocs X (committedOptionsOf db m') (m'.data db) id)) ∧
    LastNotNew es.version (recDocs X (committedOptionsOf db m') (m'.data db) id) := by
  have ht := h.trunc hm hm'
  have hprev : ∀ d ∈ recDocs X (committedOptionsOf db m) (m.data db) id, d ∈ es.all := by
    intro d hd
    rw [mem_all hs.ok]
    cases hlt : d.lt with
    | none => exact .inl ⟨id, by rw [hh.latest]; exact openOf_of_mem (hm.good X id) hd hlt⟩
    | some e =>
      exact .inr (List.mem_filter.1 (hh.archived.mem_iff.2 (List.mem_filter.2 ⟨hd, by rw [hlt]; rfl⟩))).1
  have hgood := hm'.good X id
  have hlast : LastNotNew (some t) (recDocs X (committedOptionsOf db m') (m'.data db) id) := by
    by_cases hid : id ∈ (m'.data db).map MongoRecord.id
    · obtain ⟨r, hr, rfl⟩ := List.mem_map.1 hid
      exact hd.last hm' X
    · rw [recDocs_nil (hist_none hid)]
      intro _ _ last hl
      cases hl
  rw [← ht] at hprev hh
  clear ht hd h
  generalize recDocs X (committedOptionsOf db m') (m'.data db) id = D at hprev hh hgood hlast
  exact ⟨by rw [trunc_version hs hgood hprev]; exact hh, lastNotNew_version hs hgood hprev hlast⟩

/-- The database at several times, seen from one record. -/
def TimelineFor (X : Parser P) (db id : PyStr) (s : Int) : List Mongo → Prop
  | [] => True
  | [m] => DbOk db m ∧ NoPendingOf db id m ∧ ∃ t, s ≤ t ∧ KeysUpTo db m t
  | m :: m' :: rest => DbOk db m ∧ NoPendingOf db id m ∧
      ∃ t, s ≤ t ∧ KeysUpTo db m t ∧ LaterFor X db id t m m' ∧ NoUpdateDeleteOf db id t m' ∧ TimelineFor X db id t (m' :: rest)

theorem soundIndices_nil (s : Int) : SoundIndices s ([] : ES P) :=
  ⟨latestOk_nil, fun _ h => (nomatch h), fun _ _ h => (nomatch h), fun _ h => (nomatch h), fun _ h => (nomatch h)⟩

theorem runSyncs_each (X : Parser P) (db id : PyStr) (maxDocs : Nat) : ∀ (ms : List Mongo) (m : Mongo) (s : Int) (es : ES P),
    TimelineFor X db id s (m :: ms) → SoundIndices s es →
    HoldsFor es id (trunc es.version (recDocs X (committedOptionsOf db m) (m.data db) id)) →
    LastNotNew es.version (recDocs X (committedOptionsOf db m) (m.data db) id) →
    ∃ es' t, runSyncs X maxDocs db es (m :: ms) = .ok es' ∧ SoundIndices t es' ∧
      HoldsFor es' id (recDocs X (committedOptionsOf db ((m :: ms).getLast (by simp))) (((m :: ms).getLast (by simp)).data db) id)
  | [], m, s, es, ht, hs, hh, hl => by
    obtain ⟨hm, hp, t, hst, hk⟩ := ht
    obtain ⟨es', h1, h2, h3⟩ := sync_each hm X maxDocs hs hst hk
    exact ⟨es', t, by simp only [runSyncs, h1], h2, h3 id _ rfl hh hl hp⟩
  | m' :: ms, m, s, es, ht, hs, hh, hl => by
    obtain ⟨hm, hp, t, hst, hk, hlat, hd, hrest⟩ := ht
    have hm' : DbOk db m' := by
      cases ms with
      | nil => exact hrest.1
      | cons a b => exact hrest.1
    obtain ⟨es1, h1, h2, h3⟩ := sync_each hm X maxDocs hs hst hk
    obtain ⟨g1, g2⟩ := each_ready hlat hm hm' hd h2 (h3 id _ rfl hh hl hp)
    obtain ⟨es', t', k1, k2, k3⟩ := runSyncs_each X db id maxDocs ms m' t es1 hrest h2 g1 g2
    refine ⟨es', t', ?_, k2, by simpa using k3⟩
    rw [runSyncs, h1]
    exact k1

theorem runSyncs_each_first (X : Parser P) (db id : PyStr) (maxDocs : Nat) (ms : List Mongo) (m : Mongo) (s : Int)
    (h : TimelineFor X db id s (m :: ms)) :
    ∃ es' t, runSyncs X maxDocs db [] (m :: ms) = .ok es' ∧ SoundIndices t es' ∧
      HoldsFor es' id (recDocs X (committedOptionsOf db ((m :: ms).getLast (by simp))) (((m :: ms).getLast (by simp)).data db) id) := by
  apply runSyncs_each X db id maxDocs ms m s [] h (soundIndices_nil s)
  · rw [version_nil, trunc_none]
    exact ⟨rfl, .refl _⟩
  · intro h1
    simp [version_nil, trunc_none, openOf] at h1

theorem openOf_perm {D : List (Doc P)} (hg : GoodDocs D) : ((openOf D).toList ++ closedOf D).Perm D := by
  induction D with
  | nil => exact .refl _
  | cons x l ih =>
    cases hlt : x.lt with
    | some e =>
      have e1 : openOf (x :: l) = openOf l := by simp [openOf, List.find?_cons, hlt]
      have e2 : closedOf (x :: l) = x :: closedOf l := by simp [closedOf, hlt]
      rw [e1, e2]
      exact List.perm_middle.trans ((ih hg.tail).cons x)
    | none =>
      have : l = [] := by
        cases l with
        | nil => rfl
        | cons y l =>
          obtain ⟨e, he, _⟩ := (List.pairwise_cons.1 hg.pair).1 y (by simp)
          rw [hlt] at he; cases he
      subst this
      simp [openOf, closedOf, hlt]

theorem latest_filter {es : ES P} {t : Int} (hs : SoundIndices t es) (id : PyStr) :
    ((es.docs .latest).map Prod.snd).filter (fun d => decide (d.id = id)) = (es.latestOf id).toList := by
  have hl : ∀ x ∈ es.docs .latest, ∀ i, x.1 = some i → es.latestOf i = some x.2 := by
    rintro ⟨k, d⟩ hx i rfl
    exact aget_of_mem hs.ok.nodup hx
  have hkey : ∀ x ∈ es.docs .latest, ∃ i, x.1 = some i := by
    rintro ⟨k, d⟩ hx
    cases k with
    | none => exact absurd (List.mem_map_of_mem hx) hs.ok.hasId
    | some i => exact ⟨i, rfl⟩
  have hmem : ∀ x ∈ es.docs .latest, (x.2.id = id ↔ x.1 = some id) := by
    intro x hx
    obtain ⟨i, hi⟩ := hkey x hx
    have := (hs.latest i _ (hl x hx i hi)).1
    rw [hi, this]
    constructor
    · rintro rfl; rfl
    · intro h; cases h; rfl
  have hn := hs.ok.nodup
  unfold ES.latestOf
  generalize es.docs .latest = L at hmem hn
  clear hl hkey
  induction L with
  | nil => rfl
  | cons x L ih =>
    obtain ⟨k, d⟩ := x
    have hn' : k ∉ akeys L ∧ (akeys L).Nodup := List.nodup_cons.1 hn
    have ih := ih (fun x hx => hmem x (List.mem_cons_of_mem _ hx)) hn'.2
    have hx := hmem (k, d) (by simp)
    dsimp only at hx
    by_cases hk : k = some id
    · have hnil : aget (some id) L = none := aget_eq_none_iff.2 (hk ▸ hn'.1)
      rw [hnil] at ih
      rw [List.map_cons, List.filter_cons_of_pos (by simpa using hx.2 hk), ih]
      simp [aget, hk]
    · rw [List.map_cons, List.filter_cons_of_neg (by simpa using fun h => hk (hx.1 h)), ih]
      have hk' : some id ≠ k := fun h => hk h.symm
      simp [aget, hk']

/-- What a search finds of a record: of what the latest index and the archives have of it. -/
theorem found_one {es : ES P} {t : Int} (hs : SoundIndices t es) (id : PyStr) (v : Int) :
    (foundFor es (.version v) id).Perm
      (((es.latestOf id).toList ++ es.archived.filter (fun d => decide (d.id = id))).filter (fun d => d.inRange v)) := by
  have hl : ∀ x ∈ es.docs .latest, ∀ i, x.1 = some i → es.latestOf i = some x.2 := by
    rintro ⟨k, d⟩ hx i rfl
    exact aget_of_mem hs.ok.nodup hx
  have hkey : ∀ x ∈ es.docs .latest, ∃ i, x.1 = some i := by
    rintro ⟨k, d⟩ hx
    cases k with
    | none => exact absurd (List.mem_map_of_mem hx) hs.ok.hasId
    | some i => exact ⟨i, rfl⟩
  have hp := found_perm hs.ok hs.fields (fun x hx => by
    obtain ⟨i, hi⟩ := hkey x hx
    exact (hs.latest i _ (hl x hx i hi)).2) hs.archived v
  unfold foundFor
  refine (hp.filter _).trans ?_
  rw [List.filter_filter]
  have e : (fun d : Doc P => decide (d.id = id) && d.inRange v) = fun d => d.inRange v && decide (d.id = id) := by
    funext d; rw [Bool.and_comm]
  rw [e, ← List.filter_filter]
  apply List.Perm.filter
  refine ((all_perm hs.ok.indices).filter _).trans ?_
  rw [List.filter_append]
  exact List.Perm.append_right _ (List.Perm.of_eq (latest_filter hs id))

/-- What a search finds of the record. -/
theorem HoldsFor.found {es : ES P} {t : Int} (hs : SoundIndices t es) {id : PyStr} {D : List (Doc P)} (hg : GoodDocs D)
    (h : HoldsFor es id D) (v : Int) : (foundFor es (.version v) id).Perm (D.filter (fun d => d.inRange v)) := by
  refine (found_one hs id v).trans (List.Perm.filter _ ?_)
  rw [h.latest]
  exact (List.Perm.append_left _ h.archived).trans (openOf_perm hg)

end

end Splitgill
