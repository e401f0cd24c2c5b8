import Verif.Spec.Versions
import Verif.Proof.Filter3
import Verif.Props.Search
/-!
# Lemmas: the versions at which records change
-/

namespace Splitgill
open Splitgill.Props

theorem noNaN_list_iff {l : List Value} : (Value.list l).noNaN = true ↔ ∀ v ∈ l, v.noNaN = true := by
  rw [Value.noNaN]
  induction l with
  | nil => simp [noNaNList]
  | cons v r ih => simp [noNaNList, ih]

theorem noNaN_dict_iff {d : Dict} : (Value.dict d).noNaN = true ↔ ∀ kv ∈ d, kv.2.noNaN = true := by
  rw [Value.noNaN]
  induction d with
  | nil => simp [noNaNDict]
  | cons v r ih => obtain ⟨k, v⟩ := v; simp [noNaNDict, ih]

/-- Values without NaN are equal to themselves. -/
theorem pyEq_self : ∀ v : Value, v.wf = true → v.noNaN = true → pyEq v v = true := by
  refine Value.ind' ?_ ?_ ?_
  · intro v hv _ hn
    unfold pyEq
    rw [eqWith_scalar_left hv, hv, Bool.true_and, pyScalarEq_iff]
    refine ⟨simScalarEq_refl hv, ?_⟩
    cases v with
    | float f => cases f <;> simp_all [Value.num, Value.noNaN]
    | _ => simp_all [Value.num]
  · intro l ih hwf hn
    rw [wf_list_iff] at hwf
    rw [noNaN_list_iff] at hn
    unfold pyEq
    rw [eqWith_list, eqListWith_iff, List.forall₂_same]
    exact fun v hv => ih v hv (hwf v hv) (hn v hv)
  · intro d ih hwf hn
    rw [wf_dict_iff] at hwf
    rw [noNaN_dict_iff] at hn
    unfold pyEq
    rw [eqWith_dict_iff' hwf.1 hwf.1]
    refine ⟨fun _ => Iff.rfl, fun k v w hv hw => ?_⟩
    rw [hv] at hw; cases hw
    exact ih k v (aget_mem hv) (hwf.2 k v (aget_mem hv)) (hn _ (aget_mem hv))

/-- What is similar to a value that is equal to itself is equal to it. -/
theorem pyEq_of_sim {v w : Value} (h : VR simScalarEq v w) (hs : pyEq w w = true) : pyEq v w = true :=
  pyEq_symm h.2.1 h.1 (pyEq_simEq hs (simEq_symm h.1 h.2.1 h.2.2))

theorem noNaN_aset {k : PyStr} {v : Value} {d : Dict} (hv : v.noNaN = true) (hd : ∀ kv ∈ d, kv.2.noNaN = true) :
    ∀ kv ∈ aset k v d, kv.2.noNaN = true := by
  intro kv h
  rcases mem_aset h with rfl | h
  · exact hv
  · exact hd kv h

theorem noNaN_asetOpt {k : PyStr} {v : Option Value} {d : Dict} (hv : ∀ w, v = some w → w.noNaN = true)
    (hd : ∀ kv ∈ d, kv.2.noNaN = true) : ∀ kv ∈ asetOpt k v d, kv.2.noNaN = true := by
  cases v with
  | none => exact hd
  | some v => exact noNaN_aset (hv v rfl) hd

theorem noNaN_aupdate {d e : Dict} (he : ∀ kv ∈ e, kv.2.noNaN = true) (hd : ∀ kv ∈ d, kv.2.noNaN = true) :
    ∀ kv ∈ aupdate d e, kv.2.noNaN = true := by
  intro kv h
  rcases mem_aupdate h with h | h
  · exact he kv h
  · exact hd kv h

theorem noNaN_geoDict (g : PyStr × PyStr) : ∀ kv ∈ geoDict g, kv.2.noNaN = true := by
  simp [geoDict, Value.noNaN]

section
variable {E : ParseEnv} (hN : E.NumbersExist) {o : ParsingOptions}
include hN

theorem noNaN_parseValue {v : Value} (hv : v.noNaN = true) : ∀ kv ∈ parseValue E o v, kv.2.noNaN = true := by
  unfold parseValue
  refine noNaN_asetOpt ?_ (noNaN_asetOpt ?_ (noNaN_asetOpt ?_ ?_))
  · intro w h
    obtain ⟨i, _, rfl⟩ := Option.map_eq_some_iff.1 h
    rfl
  · intro w h
    unfold parsedNumber at h
    split at h
    · cases h; rfl
    · cases h; exact hv
    · obtain ⟨f, hf, rfl⟩ := Option.map_eq_some_iff.1 h
      rw [Value.noNaN]
      exact decide_eq_true (hN _ _ hf)
  · intro w h
    obtain ⟨i, _, rfl⟩ := Option.map_eq_some_iff.1 h
    rfl
  · split
    · refine noNaN_aupdate (noNaN_geoDict _) ?_
      simp [hv, Value.noNaN]
    · simp [hv, Value.noNaN]

omit hN in
theorem noNaN_addHints : ∀ {hs : List (PyStr × (PyStr × PyStr))} {p p' : Dict}, addHints hs p = .ok p' →
    (∀ kv ∈ p, kv.2.noNaN = true) → ∀ kv ∈ p', kv.2.noNaN = true
  | [], _, _, h, hp => by cases h; exact hp
  | (k, g) :: r, p, p', h, hp => by
    rw [addHints] at h
    split at h
    · cases h
    · rename_i d hd
      refine noNaN_addHints h (noNaN_aset ?_ hp)
      rw [noNaN_dict_iff]
      exact noNaN_aupdate (noNaN_geoDict g) (noNaN_dict_iff.1 (hp _ (aget_mem hd)))
    · cases h

omit hN in
theorem noNaN_assemble {c : Bool} {d : Dict} {items x : PResult Dict} (h : assembleDict E o c d items = .ok x)
    (hi : ∀ kv ∈ items.parsed, kv.2.noNaN = true) : ∀ kv ∈ x.parsed, kv.2.noNaN = true := by
  unfold assembleDict at h
  dsimp only at h
  split at h
  · cases h
  · rename_i p hp
    cases h
    refine noNaN_addHints hp (noNaN_aupdate hi ?_)
    generalize (if c = true then matchGeojson E d else none) = g
    cases g with
    | none => simp
    | some g => exact noNaN_geoDict g

omit hN in
theorem noNaN_parseItems : ∀ {d : Dict} {x}, parseItems E o d = .ok x →
    (∀ kv ∈ d, ∀ y p, parseInner E o false kv.2 = .ok y → y.parsed = some p → p.noNaN = true) → ∀ kv ∈ x.parsed, kv.2.noNaN = true
  | [], _, h, _ => by cases h; simp
  | (k, v) :: r, x, h, ih => by
    rw [parseItems] at h
    split at h
    · cases h
    · rename_i y hy
      split at h
      · cases h
      · rename_i z hz
        cases h
        have hr := noNaN_parseItems hz (fun kv hkv => ih kv (List.mem_cons_of_mem _ hkv))
        dsimp only
        split
        · rename_i p hp
          intro kv hkv
          rcases List.mem_cons.1 hkv with rfl | hkv
          · exact ih (k, v) List.mem_cons_self y p hy hp
          · exact hr kv hkv
        · exact hr

omit hN in
theorem noNaN_parseElems : ∀ {l : List Value} {x}, parseElems E o l = .ok x →
    (∀ v ∈ l, ∀ y p, parseInner E o true v = .ok y → y.parsed = some p → p.noNaN = true) → ∀ v ∈ x.parsed, v.noNaN = true
  | [], _, h, _ => by cases h; simp
  | v :: r, x, h, ih => by
    rw [parseElems] at h
    split at h
    · cases h
    · rename_i y hy
      split at h
      · cases h
      · rename_i z hz
        cases h
        have hr := noNaN_parseElems hz (fun w hw => ih w (List.mem_cons_of_mem _ hw))
        intro w hw
        rcases List.mem_cons.1 hw with rfl | hw
        · cases hp : y.parsed with
          | none => rfl
          | some p => exact ih v List.mem_cons_self y p hy hp
        · exact hr w hw

theorem noNaN_parseInner : ∀ v : Value, v.noNaN = true → ∀ c x p, parseInner E o c v = .ok x → x.parsed = some p → p.noNaN = true := by
  apply Value.ind
  · intro _ c x p h hp
    cases h; cases hp
    cases c <;> rfl
  · intro b _ c x p h hp
    cases h; cases hp
    exact noNaN_dict_iff.2 (noNaN_parseValue hN rfl)
  · intro b _ c x p h hp
    cases h; cases hp
    exact noNaN_dict_iff.2 (noNaN_parseValue hN rfl)
  · intro b hn c x p h hp
    cases h; cases hp
    exact noNaN_dict_iff.2 (noNaN_parseValue hN hn)
  · intro s hn c x p h hp
    rw [parseInner] at h
    split at h
    · cases h; cases hp
      cases c <;> rfl
    · cases h; cases hp
      exact noNaN_dict_iff.2 (noNaN_parseValue hN rfl)
  · intro l ih hn c x p h hp
    cases l with
    | nil =>
      cases h
      cases c <;> cases hp
      rfl
    | cons v r =>
      rw [parseInner] at h
      split at h
      · cases h
      · rename_i y hy
        cases h; cases hp
        rw [noNaN_list_iff] at hn ⊢
        exact noNaN_parseElems hy (fun w hw => ih w hw (hn w hw) true)
  · intro d ih hn c x p h hp
    cases d with
    | nil =>
      cases h
      cases c <;> cases hp
      rfl
    | cons kv r =>
      rw [parseInner] at h
      split at h
      · cases h
      · rename_i y hy
        split at h
        · cases h
        · rename_i z hz
          cases h; cases hp
          rw [noNaN_dict_iff] at hn ⊢
          exact noNaN_assemble hz (noNaN_parseItems hy (fun kv hkv => ih kv.1 kv.2 hkv (hn kv hkv) false))

/-- The parse of data without NaN has none. -/
theorem noNaN_parse {d : Dict} (hd : (Value.dict d).noNaN = true) {p : ParsedData} (h : parse E o d = .ok p) :
    (Value.dict p.parsed).noNaN = true := by
  obtain ⟨x, hx, h1, h2, h3⟩ := parse_ok h
  obtain ⟨items, hi, ha⟩ := parseDict_ok hx
  rw [noNaN_dict_iff] at hd ⊢
  rw [← h1]
  exact noNaN_assemble ha (noNaN_parseItems hi (fun kv hkv => noNaN_parseInner hN kv.2 (hd kv hkv) false))

end

section
variable {E : ParseEnv} (hE : E.IgnoresOrder) (hS : E.ScalarHints) (hN : E.NumbersExist) {db : PyStr} {m : Mongo} {s : Store}
  {hi : Option Int} {U : Unicode} {rs : List Record} {hn : NoPunsAmong U rs}
  (hl : LifeInv (fun id => (strictClass (placesOf U rs hn id)).named) db m s hi) (hm : DbOk db m) {es : ES (Option ParsedData)}
  (h2 : LatestOk es) (h3 : IndexesRecords (realParser E) db m ((m.data db).filter (fun r => r.version.isSome)) es)
  (hnan : ∀ id, ∀ x ∈ (s id).committed, (Value.dict x.2).noNaN = true)
include hE hS hN hl hm h3 hnan

/-- The documents in the indices are equal to themselves. -/
theorem LifeInv.doc_self (h2 : LatestOk es) : ∀ d ∈ es.all, (realParser E).eq d.parsed d.parsed = true := by
  intro d hd
  obtain ⟨D, hD, h1, h1'⟩ := h3.indexed hm List.filter_sublist h2
  obtain ⟨r, hr, hd⟩ := hD.mem_all.1 hd
  by_cases hh : histOf (m.data db) r.id = []
  · rw [h1' r hr hh] at hd; cases hd
  have hp := h1 r hr hh
  obtain ⟨a0, ha0, _⟩ := (hp.covered d.gte).1 ⟨d, hd, Int.le_refl _, fun e he => hp.range d hd e he⟩
  obtain ⟨o0, ho0⟩ := exists_optionsAsOf (effectiveOptions_ne_nil (histOf (m.data db) r.id) hm.options.nonempty) d.gte
  have e := hp.start d hd a0 o0 ha0 ho0
  have hist := hl.hist r.id
  obtain ⟨b, hb, hba⟩ := hist.symm.asOf ha0
  have hse : SE (.dict b) (.dict a0) := hba.vr
  obtain ⟨q, hq⟩ := parse_total (E := E) (o := o0) hS hse.1
  obtain ⟨q0, hq0, k1, _⟩ := parse_eq hE hse hq
  obtain ⟨w, hw, _⟩ := hb
  have hself : pyEq (.dict q.parsed) (.dict q.parsed) = true := pyEq_self _ k1.1 (noNaN_parse hN (hnan r.id _ hw) hq)
  have hc := canonDict_se k1.2.1
  have hr : VR simScalarEq (.dict (canonDict q0.parsed)) (.dict q.parsed) := VRsim_trans hc.symm.sim k1.symm.sim
  have h4 := pyEq_of_sim hr hself
  rw [e]
  simp only [realParser, hq0, Bool.and_eq_true, decide_true, and_true]
  exact pyEq_trans h4 (pyEq_symm hr.1 hr.2.1 h4)

omit hE hN hl h3 hnan in
/-- Something is read at each version, if only that the record does not exist. -/
theorem exists_readAt {hist : List (Int × Dict)} (hw : ∀ x ∈ hist, (Value.dict x.2).wf = true) (v : Int) :
    ReadAt E hist (committedOptionsOf db m) v none ∨ ∃ q, ReadAt E hist (committedOptionsOf db m) v (some q) := by
  by_cases h : Alive hist v
  · obtain ⟨a, ha, hne⟩ := h
    obtain ⟨o, ho⟩ := exists_optionsAsOf (effectiveOptions_ne_nil hist hm.options.nonempty) v
    obtain ⟨w, hmem, hmax⟩ := ha
    obtain ⟨q, hq⟩ := parse_total (E := E) (o := o) hS (hw _ hmem)
    exact .inr ⟨q, a, o, ⟨w, hmem, hmax⟩, hne, ho, hq⟩
  · exact .inl h

include h2

/-- What a search shows of a record is equal to what is read of it. -/
theorem LifeInv.shown_read {v : Int} {id : PyStr} {q : ParsedData} (hp : (s id).pending = none)
    (h : ReadAt E (s id).committed (committedOptionsOf db m) v (some q)) :
    ∃ p, shown es v id = some (some p) ∧ VR simScalarEq (.dict p.parsed) (.dict q.parsed) ∧
      pyEq (.dict q.parsed) (.dict q.parsed) = true ∧ p.dataTypes = q.dataTypes ∧ p.parsedTypes = q.parsedTypes := by
  obtain ⟨a, o, ha, hne, ho, hq⟩ := h
  obtain ⟨d, p, q', _, _, _, g1, g2, _, _, g3, _, _, _, _, g4, g5, g6⟩ := hl.found_doc hE hS hm h2 h3 ha hne hp ho
  rw [hq] at g3; cases g3
  obtain ⟨w, hw, _⟩ := ha
  exact ⟨p, by simp [shown, g1, g2], g4, pyEq_self _ g4.2.1 (noNaN_parse hN (hnan id _ hw) hq), g5, g6⟩

omit hE hS hN hnan in
theorem LifeInv.shown_none {v : Int} {id : PyStr} (h : ¬ Alive (s id).committed v ∨ (s id).pending ≠ none) : shown es v id = none := by
  unfold shown
  rw [hl.finds_nothing hm h2 h3 h]
  rfl

/-- Searches show a change of a record at exactly the versions at which it is read differently. -/
theorem LifeInv.changedAt_iff (v : Int) (id : PyStr) : changedAt (realParser E) es v id = true ↔
    (s id).pending = none ∧ ChangesAt E (s id).committed (committedOptionsOf db m) v := by
  by_cases hp : (s id).pending = none
  swap
  · unfold changedAt
    rw [hl.shown_none hm h2 h3 (.inr hp), hl.shown_none hm h2 h3 (.inr hp)]
    simp [hp]
  have hw : ∀ x ∈ (s id).committed, (Value.dict x.2).wf = true := fun x hx => ((hl.hist id).symm.left_mem hx).1.1
  have both : ∀ {p q}, ReadAt E (s id).committed (committedOptionsOf db m) (v - 1) (some p) →
      ReadAt E (s id).committed (committedOptionsOf db m) v (some q) → (changedAt (realParser E) es v id = true ↔ ¬ p.Equal q) := by
    intro p q h h'
    obtain ⟨p', e1, r1, s1, t1, u1⟩ := hl.shown_read hE hS hN hm h2 h3 hnan hp h
    obtain ⟨q', e2, r2, s2, t2, u2⟩ := hl.shown_read hE hS hN hm h2 h3 hnan hp h'
    unfold changedAt ParsedData.Equal
    rw [e1, e2]
    dsimp only
    rw [Bool.not_eq_true', ← Bool.not_eq_true, not_iff_not]
    simp only [realParser, Bool.and_eq_true, decide_eq_true_eq, and_assoc]
    rw [t1, u1, t2, u2]
    refine and_congr_left (fun _ => ?_)
    have k1 := pyEq_of_sim r1 s1
    have k2 := pyEq_of_sim r2 s2
    exact ⟨fun h => pyEq_trans (pyEq_trans (pyEq_symm r1.1 r1.2.1 k1) h) k2,
      fun h => pyEq_trans (pyEq_trans k1 h) (pyEq_symm r2.1 r2.2.1 k2)⟩
  have nn : ∀ {w q}, ReadAt E (s id).committed (committedOptionsOf db m) w none →
      ReadAt E (s id).committed (committedOptionsOf db m) w (some q) → False := by
    rintro w q h ⟨a, o, ha, hne, _⟩
    exact h ⟨a, ha, hne⟩
  simp only [hp, true_and]
  unfold ChangesAt
  rcases exists_readAt (E := E) hS hm hw (v - 1) with h | ⟨p, h⟩ <;> rcases exists_readAt (E := E) hS hm hw v with h' | ⟨q, h'⟩
  · have : changedAt (realParser E) es v id = false := by
      unfold changedAt
      rw [hl.shown_none hm h2 h3 (.inl h), hl.shown_none hm h2 h3 (.inl h')]
    rw [this]
    simp only [Bool.false_eq_true, false_iff, not_or]
    exact ⟨fun ⟨_, q, k⟩ => nn h' k, fun ⟨⟨p, k⟩, _⟩ => nn h k, fun ⟨p, q, k, _⟩ => nn h k⟩
  · have : changedAt (realParser E) es v id = true := by
      obtain ⟨p', e, _⟩ := hl.shown_read hE hS hN hm h2 h3 hnan hp h'
      unfold changedAt
      rw [hl.shown_none hm h2 h3 (.inl h), e]
    rw [this]
    simp only [true_iff]
    exact .inl ⟨h, q, h'⟩
  · have : changedAt (realParser E) es v id = true := by
      obtain ⟨p', e, _⟩ := hl.shown_read hE hS hN hm h2 h3 hnan hp h
      unfold changedAt
      rw [hl.shown_none hm h2 h3 (.inl h'), e]
    rw [this]
    simp only [true_iff]
    exact .inr (.inl ⟨⟨p, h⟩, h'⟩)
  · constructor
    · intro hc
      exact .inr (.inr ⟨p, q, h, h', (both h h').1 hc⟩)
    · rintro (⟨k, _⟩ | ⟨_, k⟩ | ⟨p', q', k, k', hne⟩)
      · exact (nn k h).elim
      · exact (nn k h').elim
      · exact (both k k').2 hne

theorem LifeInv.addedAt_iff (v : Int) (id : PyStr) : addedAt es v id = true ↔
    (s id).pending = none ∧ AppearsAt (s id).committed v := by
  by_cases hp : (s id).pending = none
  swap
  · unfold addedAt
    rw [hl.shown_none hm h2 h3 (.inr hp), hl.shown_none hm h2 h3 (.inr hp)]
    simp [hp]
  have hw : ∀ x ∈ (s id).committed, (Value.dict x.2).wf = true := fun x hx => ((hl.hist id).symm.left_mem hx).1.1
  have key : ∀ v, (shown es v id).isSome = true ↔ Alive (s id).committed v := by
    intro v
    rcases exists_readAt (E := E) hS hm hw v with h | ⟨p, h⟩
    · rw [hl.shown_none hm h2 h3 (.inl h)]
      simp only [Option.isSome_none, Bool.false_eq_true, false_iff]
      exact h
    · obtain ⟨p', e, _⟩ := hl.shown_read hE hS hN hm h2 h3 hnan hp h
      obtain ⟨a, _, ha, hne, _⟩ := h
      rw [e]
      simp only [Option.isSome_some, true_iff]
      exact ⟨a, ha, hne⟩
  unfold addedAt AppearsAt
  rw [Bool.and_eq_true, key, ← key (v - 1)]
  simp [hp]

omit hE hS hN h2 h3 hnan in
/-- Searches show changes only at versions of the record or of the options. -/
theorem LifeInv.changedAt_version {es : ES (Option ParsedData)} (hrefl : ∀ d ∈ es.all, (realParser E).eq d.parsed d.parsed = true)
    (h2 : LatestOk es) (h3 : IndexesRecords (realParser E) db m ((m.data db).filter (fun r => r.version.isSome)) es) {r : MongoRecord}
    (hr : r ∈ (m.data db).filter (fun r => r.version.isSome)) {v : Int} (hc : changedAt (realParser E) es v r.id = true) :
    v ∈ (s r.id).committed.map Prod.fst ∨ v ∈ (committedOptionsOf db m).map Prod.fst := by
  obtain ⟨D, hD, h1, h1'⟩ := h3.indexed hm List.filter_sublist h2
  have : ∃ d ∈ D r, v = d.gte ∨ d.lt = some v := by
    rcases (hD.changedAt_iff hrefl hr v).1 hc with ⟨d, hd, e⟩ | ⟨d, hd, e⟩
    · exact ⟨d, hd, .inl (by rw [← e]; exact (hD.fields r hr d hd).2.1)⟩
    · exact ⟨d, hd, .inr (by rw [← e]; exact ((hD.fields r hr d hd).2.2).symm)⟩
  obtain ⟨d, hd, hv⟩ := this
  by_cases hh : histOf (m.data db) r.id = []
  · rw [h1' r hr hh] at hd; cases hd
  rcases (h1 r hr hh).ends d hd v hv with h | h
  · rw [(hl.hist r.id).versions] at h; exact .inl h
  · exact .inr ((List.filter_sublist.map _).subset h)

/-- The versions that are listed. -/
theorem LifeInv.versions : ∃ vs, es.versions = some vs ∧ vs.Pairwise (· < ·) ∧
    (∀ v, v ∈ vs ↔ ∃ id, (s id).pending = none ∧ ChangesAt E (s id).committed (committedOptionsOf db m) v) ∧
    (∀ v ∈ vs, (∃ id, v ∈ (s id).committed.map Prod.fst) ∨ v ∈ (committedOptionsOf db m).map Prod.fst) ∧
    ∀ v, (es.roundedVersion v = some none ∧ ∀ w ∈ vs, v < w) ∨
      ∃ w, es.roundedVersion v = some (some w) ∧ w ∈ vs ∧ w ≤ v ∧ ∀ w' ∈ vs, w' ≤ v → w' ≤ w := by
  obtain ⟨vs, k1, k2, k3, k4⟩ := C38_versions (realParser E) db m _ es (hl.doc_self hE hS hN hm h3 hnan h2) hm List.filter_sublist h2 h3
  refine ⟨vs, k1, k2, fun v => ?_, fun v hv => ?_, fun v => ?_⟩
  rotate_left
  · obtain ⟨r, hr, hc⟩ := (k3 v).1 hv
    exact (hl.changedAt_version hm (hl.doc_self hE hS hN hm h3 hnan h2) h2 h3 hr hc).imp_left (fun h => ⟨r.id, h⟩)
  rotate_left
  · rw [k3]
    constructor
    · rintro ⟨r, _, hc⟩
      exact ⟨r.id, (hl.changedAt_iff hE hS hN hm h2 h3 hnan v r.id).1 hc⟩
    · rintro ⟨id, hc⟩
      have hc' := (hl.changedAt_iff hE hS hN hm h2 h3 hnan v id).2 hc
      by_contra hno
      have hall : ∀ v, shown es v id = none := by
        intro v
        unfold shown
        have : foundFor es (.version v) id = [] := by
          refine List.eq_nil_iff_forall_not_mem.2 (fun d hd => ?_)
          have hd' := List.mem_filter.1 hd
          obtain ⟨r, hr, e⟩ := (C36_search_partial (realParser E) db m _ es hm List.filter_sublist h2 h3 v).2.2 d hd'.1
          have : r.id = id := e.symm.trans (of_decide_eq_true hd'.2)
          exact hno ⟨r, hr, by rw [this]; exact hc'⟩
        rw [this]; rfl
      unfold changedAt at hc'
      rw [hall, hall] at hc'
      cases hc'
  · rcases k4 v with ⟨h, h', _⟩ | ⟨w, h, h', h'', hmx, _⟩
    · exact .inl ⟨h, h'⟩
    · exact .inr ⟨w, h, h', h'', hmx⟩

/-- The counts of changes. -/
theorem LifeInv.counts {ids : List PyStr} (hids : ids.Nodup) (hall : ∀ id, (s id).committed ≠ [] → id ∈ ids) :
    ∃ c, es.changedCounts = some c ∧ (akeys c).Nodup ∧ ∀ v,
      (aget v c = none ↔ ¬ ∃ id, (s id).pending = none ∧ ChangesAt E (s id).committed (committedOptionsOf db m) v) ∧
      ∀ n, aget v c = some n →
        ((∀ id, (s id).pending = none → ¬ AppearsAt (s id).committed v) ∨
          (∀ id, (s id).pending = none → ChangesAt E (s id).committed (committedOptionsOf db m) v → AppearsAt (s id).committed v) →
            n = howMany ids (fun id => (s id).pending = none ∧ ChangesAt E (s id).committed (committedOptionsOf db m) v)) ∧
        ((∃ id, (s id).pending = none ∧ ChangesAt E (s id).committed (committedOptionsOf db m) v ∧ ¬ AppearsAt (s id).committed v) →
            n = howMany ids (fun id => (s id).pending = none ∧ ChangesAt E (s id).committed (committedOptionsOf db m) v ∧
              ¬ AppearsAt (s id).committed v)) := by
  obtain ⟨c, k1, k2, k3⟩ := C39_counts_partial (realParser E) db m _ es (hl.doc_self hE hS hN hm h3 hnan h2) hm List.filter_sublist h2 h3
  refine ⟨c, k1, k2, fun v => ?_⟩
  obtain ⟨k4, k5⟩ := k3 v
  have hC := hl.changedAt_iff hE hS hN hm h2 h3 hnan v
  have hA := hl.addedAt_iff hE hS hN hm h2 h3 hnan v
  generalize hrs : (m.data db).filter (fun r => r.version.isSome) = rs' at *
  have hnd : (rs'.map MongoRecord.id).Nodup := by
    rw [← hrs]; exact hm.nodup.sublist (List.filter_sublist.map _)
  -- a record that changes has a document
  have hdoc : ∀ id, changedAt (realParser E) es v id = true → ∃ r ∈ rs', r.id = id := by
    intro id hc'
    by_contra hno
    have hall : ∀ v, shown es v id = none := by
      intro v
      unfold shown
      have : foundFor es (.version v) id = [] := by
        refine List.eq_nil_iff_forall_not_mem.2 (fun d hd => ?_)
        have hd' := List.mem_filter.1 hd
        obtain ⟨r, hr, e⟩ := (C36_search_partial (realParser E) db m _ es hm (hrs ▸ List.filter_sublist) h2 h3 v).2.2 d hd'.1
        exact hno ⟨r, hr, e.symm.trans (of_decide_eq_true hd'.2)⟩
      rw [this]; rfl
    unfold changedAt at hc'
    rw [hall, hall] at hc'
    cases hc'
  have hcom : ∀ id, changedAt (realParser E) es v id = true → id ∈ ids := by
    intro id hc
    refine hall id (fun e => ?_)
    obtain ⟨_, hch⟩ := (hC id).1 hc
    have no : ∀ w, ¬ Alive (s id).committed w := by
      rintro w ⟨a, ⟨u, hu, _⟩, _⟩
      rw [e] at hu; cases hu
    rcases hch with ⟨_, q, a, o, ha, hne, _⟩ | ⟨⟨q, a, o, ha, hne, _⟩, _⟩ | ⟨p, q, ⟨a, o, ha, hne, _⟩, _⟩ <;> exact no _ ⟨a, ha, hne⟩
  have count : ∀ (b : PyStr → Bool) (P : PyStr → Prop), (∀ id, b id = true ↔ P id) →
      (∀ id, b id = true → changedAt (realParser E) es v id = true) → rs'.countP (fun r => b r.id) = howMany ids P := by
    intro b P hb hsub
    have h1 : rs'.countP (fun r => b r.id) = howMany rs' (fun r => b r.id = true) := by
      unfold howMany
      rw [List.countP_eq_length_filter]
      simp
    rw [h1]
    have e1 : howMany (rs'.filter (fun r => b r.id)) (fun r => b r.id = true) = howMany rs' (fun r => b r.id = true) := by
      unfold howMany
      rw [List.filter_filter]
      simp
    rw [← e1]
    refine howMany_map (key := MongoRecord.id) (hnd.sublist (List.filter_sublist.map _)) hids (fun r hr => ?_) (fun r _ => hb r.id) (fun id hP => ?_)
    · exact hcom _ (hsub _ (List.mem_filter.1 hr).2)
    · obtain ⟨r, hr, rfl⟩ := hdoc id (hsub id ((hb id).2 hP))
      exact List.mem_map.2 ⟨r, List.mem_filter.2 ⟨hr, (hb _).2 hP⟩, rfl⟩
  refine ⟨?_, fun n hn => ⟨fun h => ?_, fun h => ?_⟩⟩
  · rw [k4]
    constructor
    · rintro h ⟨id, hc⟩
      obtain ⟨r, hr, rfl⟩ := hdoc id ((hC id).2 hc)
      exact absurd ((hC _).2 hc) (by rw [h r hr]; decide)
    · intro h r hr
      rw [← Bool.not_eq_true]
      exact fun hc => h ⟨r.id, (hC _).1 hc⟩
  · rw [(k5 n hn).1 ?_]
    · exact count _ _ hC (fun _ h => h)
    · rcases h with h | h
      · refine .inl (fun r _ => ?_)
        rw [← Bool.not_eq_true]
        exact fun ha => h r.id ((hA _).1 ha).1 ((hA _).1 ha).2
      · exact .inr (fun r _ hc => (hA _).2 ⟨((hC _).1 hc).1, h r.id ((hC _).1 hc).1 ((hC _).1 hc).2⟩)
  · have hAf : ∀ id, (s id).pending = none → (addedAt es v id = false ↔ ¬ AppearsAt (s id).committed v) := by
      intro id hp
      rw [← Bool.not_eq_true, hA]
      simp [hp]
    rw [(k5 n hn).2 ?_]
    · refine count (fun id => changedAt (realParser E) es v id && !addedAt es v id) _ (fun id => ?_)
        (fun _ h => by rw [Bool.and_eq_true] at h; exact h.1)
      rw [Bool.and_eq_true, Bool.not_eq_true', hC, and_assoc]
      exact and_congr_right (fun hp => and_congr_right (fun _ => hAf id hp))
    · obtain ⟨id, hp, hc, ha⟩ := h
      obtain ⟨r, hr, rfl⟩ := hdoc id ((hC id).2 ⟨hp, hc⟩)
      exact ⟨r, hr, (hC _).2 ⟨hp, hc⟩, (hAf _ hp).2 ha⟩

end

/-! ## Versions are returned by calls -/

theorem Store.committed_ingest {U : Unicode} (mf : Option PyStr) : ∀ (l : List Record) (s : Store) (id : PyStr),
    (s.ingest U mf l id).committed = (s id).committed
  | [], _, _ => rfl
  | r :: l, s, id => by
    have e : s.ingest U mf (r :: l) = Store.ingest U mf l
        (fun id => if id = r.id then (s id).ingest mf (prepareRecordData U r) else s id) := rfl
    rw [e, Store.committed_ingest mf l]
    split
    · unfold Hist.ingest; split <;> rfl
    · rfl

theorem ApiCall.effect_versions (U : Unicode) (ret : Option Int) (s : Store) (c : ApiCall) (id : PyStr) :
    ∀ v ∈ (c.effect U ret s id).committed.map Prod.fst, v ∈ (s id).committed.map Prod.fst ∨ ret = some v := by
  intro v hv
  have hnone : (c.effect U none s id).committed = (s id).committed := by
    unfold ApiCall.effect
    cases c with
    | ingest mf l dc ck => exact Store.committed_ingest mf l s id
    | _ => rfl
  cases ret with
  | none => rw [hnone] at hv; exact .inl hv
  | some w =>
    have e : c.effect U (some w) s id = (c.effect U none s id).commit w := rfl
    rw [e] at hv
    generalize c.effect U none s id = h at hv hnone
    unfold Hist.commit at hv
    split at hv
    · rw [hnone] at hv; exact .inl hv
    · rw [List.map_cons, hnone] at hv
      rcases List.mem_cons.1 hv with rfl | hv
      · exact .inr rfl
      · exact .inl hv

theorem ingestedFrom_returned {U : Unicode} {db : PyStr} : ∀ (calls : List ApiCall) (m : Mongo) (s : Store) (id : PyStr),
    ∀ v ∈ (ingestedFrom U db m s calls id).committed.map Prod.fst, v ∈ (s id).committed.map Prod.fst ∨
      ∃ before call after, calls = before ++ call :: after ∧
        (call.run U db (runCalls U m (before.map (fun c => (db, c))))).1 = .ok (some v)
  | [], _, _, _, _, hv => .inl hv
  | c :: calls, m, s, id, v, hv => by
    rw [ingestedFrom] at hv
    rcases hr : c.run U db m with ⟨r, m'⟩
    rw [hr] at hv
    have lift : (∃ before call after, calls = before ++ call :: after ∧
          (call.run U db (runCalls U m' (before.map (fun c => (db, c))))).1 = .ok (some v)) →
        ∃ before call after, c :: calls = before ++ call :: after ∧
          (call.run U db (runCalls U m (before.map (fun c => (db, c))))).1 = .ok (some v) := by
      rintro ⟨b, x, a, e, h⟩
      refine ⟨c :: b, x, a, by rw [e]; rfl, ?_⟩
      have : runCalls U m ((c :: b).map (fun c => (db, c))) = runCalls U m' (b.map (fun c => (db, c))) := by
        simp [runCalls, hr]
      rw [this]; exact h
    cases r with
    | error e => exact (ingestedFrom_returned calls m' s id v hv).imp_right lift
    | ok ret =>
      rcases ingestedFrom_returned calls m' _ id v hv with h | h
      · rcases c.effect_versions U ret s id v h with h | rfl
        · exact .inl h
        · exact .inr ⟨[], c, calls, rfl, by simp [runCalls, hr]⟩
      · exact .inr (lift h)

theorem ingested_returned {U : Unicode} {db : PyStr} {calls : List ApiCall} {id : PyStr} {v : Int}
    (hv : v ∈ (ingested U db calls id).committed.map Prod.fst) : Returned U db calls v := by
  rcases ingestedFrom_returned calls Mongo.empty Store.empty id v hv with h | h
  · cases h
  · exact h

end Splitgill
