import Verif.Proof.Sync3
/-!
# Lemmas: syncs one after another
-/

namespace Splitgill

section
variable {P : Type} {X : Parser P} {db : PyStr} {m : Mongo}

theorem nodup_flatMap_perm {α : Type} {l l' : List PyStr} (hn : l.Nodup) (hn' : l'.Nodup) (f : PyStr → List α)
    (h : ∀ x, f x ≠ [] → (x ∈ l ↔ x ∈ l')) : (l.flatMap f).Perm (l'.flatMap f) := by
  have hfil : ∀ l : List PyStr, l.flatMap f = (l.filter (fun x => !(f x).isEmpty)).flatMap f := by
    intro l
    induction l with
    | nil => rfl
    | cons x l ih =>
      by_cases hx : f x = []
      · simp [hx, ih]
      · have : (f x).isEmpty = false := by simpa using hx
        simp [this, ih]
  rw [hfil l, hfil l']
  apply List.Perm.flatMap_right
  rw [List.perm_ext_iff_of_nodup (hn.filter _) (hn'.filter _)]
  intro x
  simp only [List.mem_filter, Bool.not_eq_true', List.isEmpty_eq_false_iff]
  constructor
  · rintro ⟨h1, h2⟩; exact ⟨(h x h2).1 h1, h2⟩
  · rintro ⟨h1, h2⟩; exact ⟨(h x h2).2 h1, h2⟩

/-- What is in the indices, by id. -/
theorem Holds.byId {es : ES P} (h : Holds es (m.data db) (dbDocs X db m)) (id : PyStr) :
    es.latestOf id = openOf (recDocs X (committedOptionsOf db m) (m.data db) id) := by
  by_cases hid : id ∈ (m.data db).map MongoRecord.id
  · obtain ⟨r, hr, rfl⟩ := List.mem_map.1 hid
    exact h.latest r hr
  · rw [h.others id hid, recDocs_nil (hist_none hid)]; rfl

theorem flatMap_map_id {α : Type} (l : List MongoRecord) (f : PyStr → List α) :
    l.flatMap (fun r => f r.id) = (l.map MongoRecord.id).flatMap f := by
  rw [List.flatMap_map]

theorem mem_ids_of_hist {id : PyStr} (h : histOf (m.data db) id ≠ []) : id ∈ (m.data db).map MongoRecord.id := by
  by_contra hid
  exact h (hist_none hid)

/-- The keys at an earlier time are not after it. -/
theorem Later.key_le {t : Int} {m m' : Mongo} (h : Later X db t m m') {id : PyStr} {w : Int}
    (hw : IsKey (histOf (m.data db) id) (committedOptionsOf db m) w) : w ≤ t := by
  rcases hw with hw | hw
  · have := (h.hist id).keys
    rw [this] at hw
    obtain ⟨a, ha⟩ := exists_of_key hw
    simpa using (List.mem_filter.1 ha).2
  · obtain ⟨o, ho⟩ := exists_of_key hw
    exact ((h.opts _ _).1 ho).2

/-- Indices of an earlier time hold, as of their version, what those of a later time should. -/
theorem Later.holds {t : Int} {m m' : Mongo} (h : Later X db t m m') (hm : DbOk db m) (hm' : DbOk db m') {es : ES P}
    (hh : Holds es (m.data db) (dbDocs X db m)) :
    (∀ r ∈ m'.data db, Splitgill.trunc es.version (dbDocs X db m' r) = Splitgill.trunc (some t) (dbDocs X db m' r)) ∧
    Holds es (m'.data db) (fun r => Splitgill.trunc es.version (dbDocs X db m' r)) := by
  have hall : ∀ {d : Doc P}, d ∈ es.all ↔ ∃ r ∈ m.data db, d ∈ dbDocs X db m r :=
    fun {d} => hh.mem_all (fun r _ => hm.good X r.id)
  have hmem : ∀ id, ∀ d ∈ recDocs X (committedOptionsOf db m) (m.data db) id, d ∈ es.all := by
    intro id d hd
    have hne : histOf (m.data db) id ≠ [] := by
      intro he; rw [recDocs_nil he] at hd; cases hd
    obtain ⟨r, hr, rfl⟩ := List.mem_map.1 (mem_ids_of_hist hne)
    exact hall.2 ⟨r, hr, hd⟩
  have htr : ∀ id, Splitgill.trunc es.version (recDocs X (committedOptionsOf db m') (m'.data db) id) =
      Splitgill.trunc (some t) (recDocs X (committedOptionsOf db m') (m'.data db) id) := by
    intro id
    have ht := h.trunc hm hm' id
    have hprev := hmem id
    rw [← ht] at hprev
    cases hv : es.version with
    | none =>
      have := version_none.1 hv
      rw [trunc_none]
      symm
      rw [List.eq_nil_iff_forall_not_mem]
      intro d hd
      have := hprev d hd
      simp_all
    | some e =>
      obtain ⟨h1, d1, hd1, he1⟩ := version_some hv
      have het : e ≤ t := by
        obtain ⟨r, hr, hd⟩ := hall.1 hd1
        have hk := hm.keys X hd
        have hf := (hm.good X r.id).fields d1 hd
        rcases he1 with he1 | he1
        · rw [← he1, hf.1]; exact h.key_le hk.1
        · exact h.key_le (hk.2 e (by rw [← hf.2]; exact he1))
      have hgood := hm'.good X id
      generalize recDocs X (committedOptionsOf db m') (m'.data db) id = D at hprev hgood
      unfold Splitgill.trunc
      apply List.filterMap_congr
      intro d hd
      have hf := hgood.fields d hd
      by_cases hg : t < d.gte
      · have : e < d.gte := by omega
        simp [truncDoc, gtAfter, hg, this]
      · cases hlt : d.lt with
        | none =>
          have : d ∈ Splitgill.trunc (some t) D := List.mem_filterMap.2 ⟨d, hd, by simp [truncDoc, gtAfter, hg, hlt]⟩
          have h2 := (h1 d (hprev d this)).1
          rw [hf.1] at h2
          have : ¬ e < d.gte := by omega
          simp [truncDoc, gtAfter, hg, hlt, this]
        | some f =>
          by_cases hft : t < f
          · have : { d with lt := none, next := none } ∈ Splitgill.trunc (some t) D :=
              List.mem_filterMap.2 ⟨d, hd, by simp [truncDoc, gtAfter, hg, hlt, hft]⟩
            have h2 := (h1 _ (hprev _ this)).1
            dsimp only at h2
            rw [hf.1] at h2
            have h3 : ¬ e < d.gte := by omega
            have h4 : e < f := by omega
            simp [truncDoc, gtAfter, hg, hlt, hft, h3, h4]
          · have : d ∈ Splitgill.trunc (some t) D :=
              List.mem_filterMap.2 ⟨d, hd, by simp [truncDoc, gtAfter, hg, hlt, hft]⟩
            have h2 := h1 d (hprev d this)
            rw [hf.1] at h2
            have h3 : ¬ e < d.gte := by omega
            have h4 : ¬ e < f := by
              have := h2.2 f (by rw [hf.2]; exact hlt)
              omega
            simp [truncDoc, gtAfter, hg, hlt, hft, h3, h4]
  refine ⟨fun r _ => htr r.id, hh.ok, fun r hr => ?_, fun id hid => ?_, ?_⟩
  · rw [hh.byId]
    dsimp only [dbDocs]
    rw [htr, h.trunc hm hm']
  · rw [hh.byId, ← h.trunc hm hm', recDocs_nil (hist_none hid)]; rfl
  · refine hh.archived.trans ?_
    have e1 : (m'.data db).flatMap (fun r => closedOf (Splitgill.trunc es.version (dbDocs X db m' r))) =
        (m'.data db).flatMap (fun r => closedOf (recDocs X (committedOptionsOf db m) (m.data db) r.id)) := by
      apply List.flatMap_congr
      intro r _
      dsimp only [dbDocs]
      rw [htr, h.trunc hm hm']
    rw [e1]
    unfold dbDocs
    rw [flatMap_map_id _ (fun id => closedOf (recDocs X (committedOptionsOf db m) (m.data db) id)),
      flatMap_map_id _ (fun id => closedOf (recDocs X (committedOptionsOf db m) (m.data db) id))]
    apply nodup_flatMap_perm hm.nodup hm'.nodup
    intro id hne
    have hh : histOf (m.data db) id ≠ [] := by
      intro he; rw [recDocs_nil he] at hne; exact hne rfl
    have hh' : histOf (m'.data db) id ≠ [] := by
      intro he
      have := (h.hist id).length_eq
      rw [he] at this
      exact hh (List.eq_nil_of_length_eq_zero this)
    exact ⟨fun _ => mem_ids_of_hist hh', fun _ => mem_ids_of_hist hh⟩

/-- A record with no open document is deleted in its newest version. -/
theorem DbOk.deletedNow (hm : DbOk db m) (X : Parser P) {id : PyStr} (hne : histOf (m.data db) id ≠ [])
    (ho : openOf (recDocs X (committedOptionsOf db m) (m.data db) id) = none) : DeletedNow (histOf (m.data db) id) := by
  obtain ⟨rvs, first, x, _, _, h3, h4, h5, h6⟩ := hm.docs X hne
  rw [h3] at ho
  have hdesc := hm.desc id
  cases hh : histOf (m.data db) id with
  | nil => exact absurd hh hne
  | cons vd rest =>
    obtain ⟨v, d⟩ := vd
    refine ⟨v, ?_⟩
    rw [hh] at hdesc h4 h5 h6
    simp only [List.head?_cons, Option.some.injEq, Prod.mk.injEq, true_and]
    by_contra hd
    have hle : ∀ w a, (w, a) ∈ (v, d) :: rest → w ≤ v := by
      intro w a hm
      rcases List.mem_cons.1 hm with hm | hm
      · cases hm; omega
      · have := (List.pairwise_cons.1 (by simpa using hdesc : (v :: rest.map Prod.fst).Pairwise (· > ·))).1 w
          (List.mem_map_of_mem hm)
        omega
    have hvx : v ≤ x := by
      have hvf : first ≤ v := by
        obtain ⟨a, ha⟩ := exists_of_key h6
        exact hle _ _ ha
      rcases h5 v (.inl (mem_keys List.mem_cons_self)) with h | h
      · omega
      · exact h
    have hal : Alive ((v, d) :: rest) x := ⟨d, ⟨v, List.mem_cons_self, hvx, fun w a hm _ => hle w a hm⟩, hd⟩
    obtain ⟨doc, hdoc, hc⟩ := (h4.alive x (Int.le_refl _)).2 hal
    cases hlt : doc.lt with
    | some e =>
      have := (h4.stop doc hdoc e hlt).2.1
      have := hc.2 e hlt
      omega
    | none =>
      rw [openOf, List.find?_eq_none] at ho
      have := ho doc (List.mem_reverse.1 hdoc)
      simp [hlt] at this

/-- The condition on deletions in terms of documents. -/
theorem NoUpdateDeleteOf.last {t : Int} {r : MongoRecord} (h : NoUpdateDeleteOf db r.id t m) (hm : DbOk db m) (X : Parser P) :
    LastNotNew (some t) (dbDocs X db m r) := by
  intro h1 h2 last hl
  have hne : histOf (m.data db) r.id ≠ [] := by
    intro he; unfold dbDocs at hl; rw [recDocs_nil he] at hl; cases hl
  have hp := hm.partitions X hne
  have hgood := hm.good X r.id
  have hlm := List.mem_of_getLast? hl
  -- it existed at `t`
  have halive : Alive (histOf (m.data db) r.id) t := by
    cases ho : openOf (trunc (some t) (dbDocs X db m r)) with
    | none => exact absurd ho h1
    | some d =>
      have hd := List.mem_of_find?_eq_some ho
      have hdn := List.find?_some ho
      obtain ⟨d0, hd0, ht⟩ := List.mem_filterMap.1 hd
      apply (hp.covered t).1
      refine ⟨d0, hd0, ?_⟩
      by_cases hg : t < d0.gte
      · simp [truncDoc, gtAfter, hg] at ht
      · refine ⟨by omega, fun e he => ?_⟩
        by_contra hlt
        simp only [truncDoc, gtAfter, decide_eq_true_eq, if_neg hg, he, if_neg hlt, Option.some.injEq] at ht
        subst ht
        simp [he] at hdn
  have := h halive (hm.deletedNow X hne h2) last.gte
  by_contra hg
  simp only [gtAfter, Bool.not_eq_false, decide_eq_true_eq] at hg
  have hkey := (hm.keys X (id := r.id) hlm).1
  exact this hg hkey ((hp.covered last.gte).1 ⟨last, hlm, Int.le_refl _, fun e he => hgood.range last hlm e he⟩)

theorem NoUpdateDelete.last {t : Int} (h : NoUpdateDelete db t m) (hm : DbOk db m) (X : Parser P)
    (r : MongoRecord) : LastNotNew (some t) (dbDocs X db m r) := (h r.id).last hm X

theorem Holds.same {es es' : ES P} {rs : List MongoRecord} {D : MongoRecord → List (Doc P)} (h : Holds es rs D)
    (h' : Holds es' rs D) : SameIndices es es' := by
  have hl : ∀ id, es.latestOf id = es'.latestOf id := by
    intro id
    by_cases hid : id ∈ rs.map MongoRecord.id
    · obtain ⟨r, hr, rfl⟩ := List.mem_map.1 hid
      rw [h.latest r hr, h'.latest r hr]
    · rw [h.others id hid, h'.others id hid]
  refine ⟨?_, h.archived.trans h'.archived.symm⟩
  rintro ⟨k, d⟩
  cases k with
  | none =>
    exact ⟨fun hm => absurd (List.mem_map_of_mem hm) h.ok.hasId, fun hm => absurd (List.mem_map_of_mem hm) h'.ok.hasId⟩
  | some id =>
    rw [← aget_iff_mem h.ok.nodup, ← aget_iff_mem h'.ok.nodup]
    have := hl id
    unfold ES.latestOf at this
    rw [this]

theorem latestOk_nil : LatestOk ([] : ES P) := ⟨by simp [akeys], by simp [ES.docs, aget, akeys], by simp [ES.docs, aget, akeys]⟩

theorem holds_nil (rs : List MongoRecord) : Holds ([] : ES P) rs (fun _ => []) :=
  ⟨latestOk_nil, fun _ _ => rfl, fun _ _ => rfl, by simp [ES.archived, closedOf]⟩

theorem version_nil : ES.version ([] : ES P) = none := rfl

/-- The first sync. -/
theorem sync_first (hm : DbOk db m) (X : Parser P) (maxDocs : Nat) (hp : PendingOld db none m) :
    ∃ es, sync X maxDocs db false m [] = .ok es ∧ Holds es (m.data db) (dbDocs X db m) := by
  apply sync_step hm X maxDocs
  · simp only [version_nil, trunc_none]; exact holds_nil _
  · intro r _ h1
    simp [version_nil, trunc_none, openOf] at h1
  · intro r hr hv
    by_cases hne : histOf (m.data db) r.id = []
    · rw [dbDocs, recDocs_nil hne]; rfl
    · obtain ⟨t', ht', _⟩ := hp r hr hv hne
      cases ht'

/-- What holds before the next sync. -/
theorem next_ready {t : Int} {m m' : Mongo} (h : Later X db t m m') (hm : DbOk db m) (hm' : DbOk db m')
    (hd : NoUpdateDelete db t m') {es : ES P} (hh : Holds es (m.data db) (dbDocs X db m)) :
    (∀ r ∈ m'.data db, Splitgill.trunc es.version (dbDocs X db m' r) = Splitgill.trunc (some t) (dbDocs X db m' r)) ∧
    Holds es (m'.data db) (fun r => Splitgill.trunc es.version (dbDocs X db m' r)) ∧
    ∀ r ∈ m'.data db, LastNotNew es.version (dbDocs X db m' r) := by
  obtain ⟨h1, h2⟩ := h.holds hm hm' hh
  have hnone : es.version = none → ∀ r, Splitgill.trunc (some t) (dbDocs X db m' r) = [] := by
    intro hv r
    have := version_none.1 hv
    dsimp only [dbDocs]
    rw [h.trunc hm hm', List.eq_nil_iff_forall_not_mem]
    intro d hd
    have hne : histOf (m.data db) r.id ≠ [] := by
      intro he; rw [recDocs_nil he] at hd; cases hd
    obtain ⟨r', hr', he⟩ := List.mem_map.1 (mem_ids_of_hist hne)
    have : d ∈ es.all := (hh.mem_all (fun r _ => hm.good X r.id)).2 ⟨r', hr', by unfold dbDocs; rw [he]; exact hd⟩
    simp_all
  refine ⟨h1, h2, ?_⟩
  · intro r hr
    have hlast := hd.last hm' X r
    intro ha hb last hl
    rw [h1 r hr] at ha
    have hg := hlast ha hb last hl
    -- the last document is of the earlier time, so not newer than the version of the indices
    cases hv : es.version with
    | none => rw [hnone hv] at ha; exact absurd rfl ha
    | some e =>
      have hlm := List.mem_of_getLast? hl
      have hgt : ¬ t < last.gte := by simpa [gtAfter] using hg
      have htd : ∃ d ∈ Splitgill.trunc (some t) (dbDocs X db m' r), d.gte = last.gte ∧ d.version = d.gte := by
        have hf := (hm'.good X r.id).fields last hlm
        cases hlt : last.lt with
        | none => exact ⟨last, List.mem_filterMap.2 ⟨last, hlm, by simp [truncDoc, gtAfter, hgt, hlt]⟩, rfl, hf.1⟩
        | some f =>
          by_cases hft : t < f
          · exact ⟨{ last with lt := none, next := none },
              List.mem_filterMap.2 ⟨last, hlm, by simp [truncDoc, gtAfter, hgt, hlt, hft]⟩, rfl, hf.1⟩
          · exact ⟨last, List.mem_filterMap.2 ⟨last, hlm, by simp [truncDoc, gtAfter, hgt, hlt, hft]⟩, rfl, hf.1⟩
      obtain ⟨d, hd1, hd2, hd3⟩ := htd
      rw [← h1 r hr] at hd1
      have hall := h2.mem_all (d := d) (fun r hr => by
        rw [h1 r hr]
        dsimp only [dbDocs]
        rw [h.trunc hm hm']
        exact hm.good X r.id)
      have := ((version_some hv).1 d (hall.2 ⟨r, hr, hd1⟩)).1
      simp only [gtAfter, decide_eq_false_iff_not]
      omega

/-- The next sync. -/
theorem sync_next {t : Int} {m m' : Mongo} (h : Later X db t m m') (hm : DbOk db m) (hm' : DbOk db m')
    (hd : NoUpdateDelete db t m') (hp : PendingOld db (some t) m') (maxDocs : Nat) {es : ES P}
    (hh : Holds es (m.data db) (dbDocs X db m)) :
    ∃ es', sync X maxDocs db false m' es = .ok es' ∧ Holds es' (m'.data db) (dbDocs X db m') := by
  obtain ⟨h1, h2, hl⟩ := next_ready h hm hm' hd hh
  apply sync_step hm' X maxDocs h2 hl
  · intro r hr hv
    by_cases hne : histOf (m'.data db) r.id = []
    · rw [dbDocs, recDocs_nil hne]; rfl
    · obtain ⟨t', ht', ha, hb⟩ := hp r hr hv hne
      cases ht'
      rw [h1 r hr]
      exact hm'.trunc_old X ha (fun _ => hb)

end
end Splitgill
