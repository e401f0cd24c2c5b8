import Verif.Proof.EndToEnd
/-!
# Lemmas: what is found and rebuilt
-/

namespace Splitgill

theorem exists_greatest {α : Type} : ∀ {l : List (Int × α)}, l ≠ [] → ∃ x ∈ l, ∀ y ∈ l, y.1 ≤ x.1
  | [], h => absurd rfl h
  | [x], _ => ⟨x, by simp, by simp⟩
  | x :: y :: l, _ => by
    obtain ⟨z, hz, h⟩ := exists_greatest (l := y :: l) (by simp)
    by_cases hx : z.1 ≤ x.1
    · refine ⟨x, by simp, fun w hw => ?_⟩
      rcases List.mem_cons.1 hw with rfl | hw
      · exact Int.le_refl _
      · exact Int.le_trans (h w hw) hx
    · refine ⟨z, List.mem_cons_of_mem _ hz, fun w hw => ?_⟩
      rcases List.mem_cons.1 hw with rfl | hw
      · omega
      · exact h w hw

theorem exists_least {α : Type} : ∀ {l : List (Int × α)}, l ≠ [] → ∃ x ∈ l, ∀ y ∈ l, x.1 ≤ y.1
  | [], h => absurd rfl h
  | [x], _ => ⟨x, by simp, by simp⟩
  | x :: y :: l, _ => by
    obtain ⟨z, hz, h⟩ := exists_least (l := y :: l) (by simp)
    by_cases hx : x.1 ≤ z.1
    · refine ⟨x, by simp, fun w hw => ?_⟩
      rcases List.mem_cons.1 hw with rfl | hw
      · exact Int.le_refl _
      · exact Int.le_trans hx (h w hw)
    · refine ⟨z, List.mem_cons_of_mem _ hz, fun w hw => ?_⟩
      rcases List.mem_cons.1 hw with rfl | hw
      · omega
      · exact h w hw

theorem exists_optionsAsOf {l : List (Int × ParsingOptions)} (h : l ≠ []) (v : Int) : ∃ o, OptionsAsOf l v o := by
  by_cases hb : ∃ w o, (w, o) ∈ l ∧ w ≤ v
  · obtain ⟨w, o, hm, hle⟩ := hb
    obtain ⟨x, hx, hmax⟩ := exists_greatest (l := l.filter (fun x => decide (x.1 ≤ v)))
      (List.ne_nil_of_mem (List.mem_filter.2 ⟨hm, by simpa using hle⟩))
    have hx' := List.mem_filter.1 hx
    exact ⟨x.2, .inl ⟨x.1, hx'.1, by simpa using hx'.2,
      fun w' y hy hle' => hmax (w', y) (List.mem_filter.2 ⟨hy, by simpa using hle'⟩)⟩⟩
  · obtain ⟨x, hx, hmin⟩ := exists_least h
    refine ⟨x.2, .inr ⟨fun w y hy => ?_, x.1, hx, fun w' y hy => hmin (w', y) hy⟩⟩
    by_contra hlt
    exact hb ⟨w, y, hy, by omega⟩

theorem effectiveOptions_ne_nil (hist : List (Int × Dict)) {opts : List (Int × ParsingOptions)} (h : opts ≠ []) :
    effectiveOptions hist opts ≠ [] := by
  obtain ⟨x, hx, hmin⟩ := exists_least h
  refine List.ne_nil_of_mem (a := x) (List.mem_filter.2 ⟨hx, ?_⟩)
  simp only [Bool.or_eq_true, List.all_eq_true, decide_eq_true_eq]
  exact .inr hmin

theorem NoPun.of_se {a b a' b' : Value} (h : NoPun a b) (ha : SE a' a) (hb : SE b' b) : NoPun a' b' := by
  intro p v w hv hw hs hs' he
  obtain ⟨v', h1, h2⟩ := VR_getAt hv ha
  obtain ⟨w', h3, h4⟩ := VR_getAt hw hb
  rw [← SE.scalar hs h2] at h1
  rw [← SE.scalar hs' h4] at h3
  exact h p v w h1 h3 hs hs' he

theorem SE.sim {a b : Value} (h : SE a b) : VR simScalarEq a b := ⟨h.1, h.2.1, simEq_of_strictEq h.2.2⟩

theorem VRsim_trans {a b d : Value} (h : VR simScalarEq a b) (h' : VR simScalarEq b d) : VR simScalarEq a d :=
  ⟨h.1, h'.2.1, simEq_trans h.2.2 h'.2.2⟩

/-- What is rebuilt from the parse of data, as it is in the index. -/
theorem rebuild_realParser {E : ParseEnv} (hE : E.IgnoresOrder) (hS : E.ScalarHints) {a : Dict} (hw : (Value.dict a).wf = true)
    (hf : FieldNames (.dict a)) (o : ParsingOptions) :
    ∃ p, (realParser E).parse a o = some p ∧ (Value.dict p.parsed).wf = true ∧ SE (.dict (rebuildData p.parsed)) (.dict (remainsDict a)) := by
  obtain ⟨q, hq⟩ := parse_total (E := E) (o := o) hS hw
  obtain ⟨_, _, h1, _⟩ := parse_eq hE (SE.refl hw) hq
  have h2 := canonDict_se h1.1
  refine ⟨{ q with parsed := canonDict q.parsed }, by simp [realParser, hq], h2.2.1, ?_⟩
  have h3 := rebuildData_congr h2.symm
  rw [rebuild_parse hw hf hq] at h3
  exact h3

theorem found_rebuilt {E : ParseEnv} (hE : E.IgnoresOrder) (hS : E.ScalarHints) {db : PyStr} {m : Mongo} {rs : List MongoRecord}
    {es : ES (Option ParsedData)} (hm : DbOk db m) (hrs : rs.Sublist (m.data db)) (hok : LatestOk es)
    (h : IndexesRecords (realParser E) db m rs es) {r : MongoRecord} (hr : r ∈ rs)
    (hdata : ∀ x ∈ histOf (m.data db) r.id, (Value.dict x.2).wf = true ∧ FieldNames (.dict x.2)) {v : Int} {a : Dict}
    (ha : AsOf (histOf (m.data db) r.id) v a) (hne : a ≠ []) :
    ∃ d p, foundFor es (.version v) r.id = [d] ∧ d.parsed = some p ∧
      VR simScalarEq (.dict (rebuildData p.parsed)) (.dict (remainsDict a)) ∧
      ((∀ x ∈ histOf (m.data db) r.id, ∀ y ∈ histOf (m.data db) r.id, NoPun (.dict x.2) (.dict y.2)) →
        SE (.dict (rebuildData p.parsed)) (.dict (remainsDict a))) := by
  obtain ⟨D, hD, h1, _⟩ := h.indexed hm hrs hok
  have hh : histOf (m.data db) r.id ≠ [] := by
    obtain ⟨w, hw, _⟩ := ha
    intro he; rw [he] at hw; cases hw
  have hp := h1 r hr hh
  obtain ⟨d, hd, hc⟩ := (hp.covered v).2 ⟨a, ha, hne⟩
  have hopts := effectiveOptions_ne_nil (histOf (m.data db) r.id) hm.options.nonempty
  obtain ⟨o, ho⟩ := exists_optionsAsOf hopts v
  obtain ⟨o0, ho0⟩ := exists_optionsAsOf hopts d.gte
  obtain ⟨a0, ha0, _⟩ := (hp.covered d.gte).1 ⟨d, hd, Int.le_refl _, fun e he => hp.range d hd e he⟩
  have hmem : ∀ {w : Int} {x : Dict}, AsOf (histOf (m.data db) r.id) w x → ∃ u, (u, x) ∈ histOf (m.data db) r.id :=
    fun ⟨u, hu, _⟩ => ⟨u, hu⟩
  obtain ⟨u, hu⟩ := hmem ha
  obtain ⟨u0, hu0⟩ := hmem ha0
  obtain ⟨q, hq, hqw, hqr⟩ := rebuild_realParser hE hS (hdata _ hu).1 (hdata _ hu).2 o
  obtain ⟨p, hpp, hpw, hpr⟩ := rebuild_realParser hE hS (hdata _ hu0).1 (hdata _ hu0).2 o0
  have e := hp.start d hd a0 o0 ha0 ho0
  rw [hpp] at e
  have hsame := hp.content v d hd hc a o ha ho
  rw [e, hq] at hsame
  refine ⟨d, p, hD.foundFor_some hr hd hc, e, ?_⟩
  rcases hsame with hsame | hsame
  · cases hsame
    exact ⟨hqr.sim, fun _ => hqr⟩
  · simp only [realParser, Bool.and_eq_true] at hsame
    have hsim : simEq (.dict p.parsed) (.dict q.parsed) = true := by
      rcases hsame with hsame | hsame
      · exact simEq_of_pyEq hsame.1.1
      · exact hsame.1.1
    have h3 : VR simScalarEq (.dict (rebuildData p.parsed)) (.dict (rebuildData q.parsed)) := rebuildData_congr ⟨hpw, hqw, hsim⟩
    refine ⟨VRsim_trans h3 hqr.sim, fun hn => ?_⟩
    have h4 : NoPun (.dict (remainsDict a0)) (.dict (remainsDict a)) := by
      have := (hn _ hu0 _ hu).remains (hdata _ hu0).1 (hdata _ hu).1
      rwa [remains, remains] at this
    exact SE.trans ⟨h3.1, h3.2.1, strictEq_of_simEq _ _ h3.1 h3.2.1 (h4.of_se hpr hqr) h3.2.2⟩ hqr

/-! ## The histories -/

theorem VersEq.asOf {K : DataClass} {a b : List (Int × Dict)} (h : VersEq K a b) {v : Int} {x : Dict} (hx : AsOf b v x) :
    ∃ y, AsOf a v y ∧ DEq K y x := by
  have hmem : ∀ {a b : List (Int × Dict)}, VersEq K a b → ∀ w x, (w, x) ∈ b → ∃ y, (w, y) ∈ a ∧ DEq K y x := by
    intro a b h
    induction h with
    | nil => intro w x h; cases h
    | @cons p q as bs h _ ih =>
      intro w x hm
      rcases List.mem_cons.1 hm with rfl | hm
      · exact ⟨p.2, by rw [show (w, p.2) = p from Prod.ext h.1.symm rfl]; exact List.mem_cons_self, h.2⟩
      · obtain ⟨y, h1, h2⟩ := ih w x hm
        exact ⟨y, List.mem_cons_of_mem _ h1, h2⟩
  have hmem' : ∀ {a b : List (Int × Dict)}, VersEq K a b → ∀ w x, (w, x) ∈ a → ∃ y, (w, y) ∈ b := by
    intro a b h
    induction h with
    | nil => intro w x h; cases h
    | @cons p q as bs h _ ih =>
      intro w x hm
      rcases List.mem_cons.1 hm with rfl | hm
      · exact ⟨q.2, by rw [show (w, q.2) = q from Prod.ext h.1 rfl]; exact List.mem_cons_self⟩
      · obtain ⟨y, h1⟩ := ih w x hm
        exact ⟨y, List.mem_cons_of_mem _ h1⟩
  obtain ⟨w, hw, hle, hmax⟩ := hx
  obtain ⟨y, hy, hd⟩ := hmem h w x hw
  refine ⟨y, ⟨w, hy, hle, fun w' z hz hle' => ?_⟩, hd⟩
  obtain ⟨z', hz'⟩ := hmem' h w' z hz
  exact hmax w' z' hz' hle'

theorem VersEq.left_mem {K : DataClass} {a b : List (Int × Dict)} (h : VersEq K a b) {x : Int × Dict} (hx : x ∈ a) : K.Q x.2 := by
  induction h with
  | nil => cases hx
  | cons h _ ih =>
    rcases List.mem_cons.1 hx with rfl | hx
    · exact h.2.left
    · exact ih hx

theorem VersEq.alive {K : DataClass} {a b : List (Int × Dict)} (h : VersEq K a b) {v : Int} (ha : Alive a v) : Alive b v := by
  obtain ⟨x, hx, hne⟩ := ha
  obtain ⟨y, hy, hd⟩ := h.symm.asOf hx
  exact ⟨y, hy, fun e => hne (hd.nil_iff.1 e)⟩

/-- The documents without uncommitted data. -/
theorem LifeInv.pending_iff {K : PyStr → DataClass} {db : PyStr} {m : Mongo} {s : Store} {hi : Option Int} (h : LifeInv K db m s hi)
    {r : MongoRecord} (hr : r ∈ m.data db) : (s r.id).pending = none ↔ r.version.isSome = true := by
  have hrep := h.rep.rep r.id
  rw [findRecord_of_mem h.rep.nodup hr] at hrep
  generalize s r.id = x at hrep
  obtain ⟨cs, p⟩ := x
  cases p with
  | some p => rw [Rep] at hrep; simp [hrep.version]
  | none =>
    cases cs with
    | nil => exact hrep.elim
    | cons vd cs => rw [Rep] at hrep; simp [hrep.1.version]

/-- What a first sync makes of a database. -/
theorem LifeInv.first_sync {E : ParseEnv} (hE : E.IgnoresOrder) (hS : E.ScalarHints) {K : PyStr → DataClass} {db : PyStr} {m : Mongo}
    {s : Store} {hi : Option Int} (hl : LifeInv (fun id => (K id).named) db m s hi) (hm : DbOk db m) {es : ES (Option ParsedData)} (hok : LatestOk es)
    (h : IndexesRecords (realParser E) db m ((m.data db).filter (fun r => r.version.isSome)) es) {v : Int} {id : PyStr} {a : Dict}
    (ha : AsOf (s id).committed v a) (hne : a ≠ []) (hp : (s id).pending = none) :
    ∃ d p b, foundFor es (.version v) id = [d] ∧ d.parsed = some p ∧ DEq (K id) b a ∧
      VR simScalarEq (.dict (rebuildData p.parsed)) (.dict (remainsDict b)) ∧
      ((∀ x y, (K id).Q x → (K id).Q y → NoPun (.dict x) (.dict y)) → SE (.dict (rebuildData p.parsed)) (.dict (remainsDict b))) := by
  have hid : id ∈ (m.data db).map MongoRecord.id := by
    refine mem_ids_of_hist (fun hnil => ?_)
    obtain ⟨y, ⟨w, hw, _⟩, _⟩ := (hl.hist id).asOf ha
    rw [hnil] at hw; cases hw
  obtain ⟨r, hr, rfl⟩ := List.mem_map.1 hid
  have hh := hl.hist r.id
  obtain ⟨b, hb, hba⟩ := hh.asOf ha
  have hr' : r ∈ (m.data db).filter (fun r => r.version.isSome) := List.mem_filter.2 ⟨hr, (hl.pending_iff hr).1 hp⟩
  obtain ⟨d, p, g1, g2, g3, g4⟩ := found_rebuilt hE hS hm List.filter_sublist hok h hr'
    (fun x hx => ⟨(K r.id).wf (hh.left_mem hx).1, (hh.left_mem hx).2⟩) hb (fun e => hne (hba.nil_iff.1 e))
  exact ⟨d, p, b, g1, g2, ⟨hba.vr, hba.left.1, hba.right.1⟩, g3,
    fun hn => g4 (fun x hx y hy => hn x.2 y.2 (hh.left_mem hx).1 (hh.left_mem hy).1)⟩

end Splitgill
