import Verif.Proof.Sync
/-!
# Lemmas: the documents of a database at two times
-/

namespace Splitgill

section
variable {P : Type} {X : Parser P} {id : PyStr}

/-! ## Data that is the same for the parser -/

def PS (X : Parser P) (a b : Dict) : Prop := (∀ o, X.parse a o = X.parse b o) ∧ (a = [] ↔ b = [])

theorem SameForParser.keys {h h' : List (Int × Dict)} (hs : SameForParser X h h') : akeys h = akeys h' := by
  induction hs with
  | nil => rfl
  | cons hab _ ih => simp only [akeys, List.map_cons, hab.1] at ih ⊢; rw [ih]

theorem SameForParser.get {h h' : List (Int × Dict)} (hs : SameForParser X h h') (v : Int) :
    (aget v h = none ∧ aget v h' = none) ∨ ∃ a b, aget v h = some a ∧ aget v h' = some b ∧ PS X a b := by
  induction hs with
  | nil => exact .inl ⟨rfl, rfl⟩
  | @cons x y _ _ hab _ ih =>
    obtain ⟨k, a⟩ := x
    obtain ⟨k', b⟩ := y
    have : k = k' := hab.1
    subst this
    by_cases hk : v = k
    · exact .inr ⟨a, b, by simp [aget_cons, hk], by simp [aget_cons, hk], hab.2⟩
    · simpa [aget_cons, hk] using ih

/-- States with the same record versions. -/
structure StSame (X : Parser P) (s s' : BuildState P) : Prop where
  data : PS X s.data s'.data
  options : s.options = s'.options
  rvs : s.rvs = s'.rvs

theorem buildStep_same {h h' : List (Int × Dict)} (hs : SameForParser X h h') {opts : List (Int × ParsingOptions)}
    {first y : Int} {s s' : BuildState P} (hst : StSame X s s') :
    (∃ t t', buildStep X id h opts first s y = .ok t ∧ buildStep X id h' opts first s' y = .ok t' ∧ StSame X t t') ∨
    (∃ e, buildStep X id h opts first s y = .error e ∧ buildStep X id h' opts first s' y = .error e) := by
  unfold buildStep
  by_cases hy : y < first
  · rw [if_pos hy, if_pos hy]; exact .inl ⟨s, s', rfl, rfl, hst⟩
  · rw [if_neg hy, if_neg hy]
    have hd : PS X ((aget y h).getD s.data) ((aget y h').getD s'.data) := by
      rcases hs.get y with ⟨h1, h2⟩ | ⟨a, b, h1, h2, h3⟩
      · rw [h1, h2]; exact hst.data
      · rw [h1, h2]; exact h3
    have hnn : (aget y h).isNone = (aget y h').isNone := by
      rcases hs.get y with ⟨h1, h2⟩ | ⟨a, b, h1, h2, h3⟩ <;> rw [h1, h2]
      rfl
    dsimp only
    rw [hnn]
    generalize (aget y h).getD s.data = a at hd
    generalize (aget y h').getD s'.data = b at hd
    rw [hst.options, hst.rvs]
    have hpar := hd.1 ((aget y opts).getD s'.options)
    cases a with
    | nil =>
      have hb : b = [] := hd.2.1 rfl
      subst hb
      cases s'.rvs with
      | nil => exact .inr ⟨_, rfl, rfl⟩
      | cons l r => exact .inl ⟨_, _, rfl, rfl, hd, rfl, rfl⟩
    | cons a0 ar =>
      cases b with
      | nil => exact absurd (hd.2.2 rfl) (by simp)
      | cons b0 br =>
        simp only [List.isEmpty_cons, Bool.false_eq_true, if_false, hpar]
        cases s'.rvs with
        | nil => exact .inl ⟨_, _, rfl, rfl, hd, rfl, rfl⟩
        | cons l r => exact .inl ⟨_, _, rfl, rfl, hd, rfl, rfl⟩

theorem buildLoop_same {h h' : List (Int × Dict)} (hs : SameForParser X h h') {opts : List (Int × ParsingOptions)}
    {first : Int} : ∀ (vs : List Int) {s s' : BuildState P}, StSame X s s' →
    (∃ t t', buildLoop X id h opts first s vs = .ok t ∧ buildLoop X id h' opts first s' vs = .ok t' ∧ StSame X t t') ∨
    (∃ e, buildLoop X id h opts first s vs = .error e ∧ buildLoop X id h' opts first s' vs = .error e)
  | [], s, s', hst => .inl ⟨s, s', rfl, rfl, hst⟩
  | v :: vs, s, s', hst => by
    rcases buildStep_same (id := id) hs (opts := opts) (first := first) (y := v) hst with ⟨t, t', h1, h2, h3⟩ | ⟨e, h1, h2⟩
    · simp only [buildLoop, h1, h2]
      exact buildLoop_same hs vs h3
    · simp only [buildLoop, h1, h2]
      exact .inr ⟨e, rfl, rfl⟩

theorem buildFrom_same {h h' : List (Int × Dict)} (hs : SameForParser X h h') (opts : List (Int × ParsingOptions)) :
    buildFrom X id h opts = buildFrom X id h' opts := by
  unfold buildFrom
  rw [hs.keys]
  cases (akeys h').min? with
  | none => rfl
  | some first =>
    cases (akeys opts).min? with
    | none => rfl
    | some fo =>
      dsimp only
      rcases hs.get first with ⟨h1, h2⟩ | ⟨a, b, h1, h2, h3⟩
      · rw [h1, h2]
      · rw [h1, h2]
        cases aget fo opts with
        | none => rfl
        | some o =>
          dsimp only
          rcases buildLoop_same (id := id) hs (opts := opts) (first := first) (sortedSet (akeys opts ++ akeys h'))
            (s := ⟨a, o, []⟩) (s' := ⟨b, o, []⟩) ⟨h3, rfl, rfl⟩ with ⟨t, t', h4, h5, h6⟩ | ⟨e, h4, h5⟩
          · simp only [h4, h5, h6.rvs]
          · simp only [h4, h5]

/-! ## Going on with newer versions -/

theorem sortedSet_eq {l m : List Int} (hm : m.Pairwise (· < ·)) (h : ∀ x, x ∈ l ↔ x ∈ m) : sortedSet l = m := by
  unfold sortedSet
  apply sortAsc_eq (setFold_nodup l [] .nil) hm
  intro x
  rw [setFold_mem, ← h]; simp

theorem buildLoop_append {h : List (Int × Dict)} {opts : List (Int × ParsingOptions)} {first : Int} :
    ∀ (a b : List Int) (s : BuildState P), buildLoop X id h opts first s (a ++ b) =
      match buildLoop X id h opts first s a with
      | .error e => .error e
      | .ok t => buildLoop X id h opts first t b
  | [], _, _ => rfl
  | v :: a, b, s => by
    simp only [List.cons_append, buildLoop]
    cases buildStep X id h opts first s v with
    | error e => rfl
    | ok t => exact buildLoop_append a b t

theorem buildLoop_congr {h h' : List (Int × Dict)} {opts opts' : List (Int × ParsingOptions)} {first : Int} :
    ∀ (vs : List Int) (s : BuildState P), (∀ v ∈ vs, aget v h = aget v h' ∧ aget v opts = aget v opts') →
      buildLoop X id h opts first s vs = buildLoop X id h' opts' first s vs
  | [], _, _ => rfl
  | v :: vs, s, hv => by
    have h1 := hv v List.mem_cons_self
    have : buildStep X id h opts first s v = buildStep X id h' opts' first s v := by
      simp only [buildStep, h1.1, h1.2]
    simp only [buildLoop, this]
    cases buildStep X id h' opts' first s v with
    | error e => rfl
    | ok t => exact buildLoop_congr vs t (fun w hw => hv w (List.mem_cons_of_mem _ hw))

theorem trunc_closeAt {t y : Int} (h : t < y) (D : List (Doc P)) (hf : ∀ d ∈ D, d.next = d.lt) :
    trunc (some t) (closeAt y D) = trunc (some t) D := by
  cases D with
  | nil => rfl
  | cons d D =>
    simp only [closeAt, trunc_cons]
    split
    · rename_i hn
      have hn := Option.isNone_iff_eq_none.1 hn
      have hx := hf d List.mem_cons_self
      congr 2
      by_cases hg : t < d.gte
      · simp [truncDoc, gtAfter, hg]
      · obtain ⟨a, b, c, e, f, g⟩ := d
        simp only at hn hx hg
        subst hn; subst hx
        simp [truncDoc, gtAfter, hg, h]
    · rfl

theorem docsRev_fields : ∀ (next : Option (RecordVersion P)) (l : List (RecordVersion P)), ∀ d ∈ docsRev next l,
    d.next = d.lt ∧ d.version = d.gte
  | _, [], d, h => by cases h
  | next, rv :: rest, d, h => by
    rcases List.mem_cons.1 h with rfl | h
    · exact ⟨rfl, rfl⟩
    · exact docsRev_fields _ rest d h

theorem buildStep_trunc {h : List (Int × Dict)} {opts : List (Int × ParsingOptions)} {first t y : Int} (hy : t < y)
    {s s' : BuildState P} (hs : buildStep X id h opts first s y = .ok s') :
    trunc (some t) (docsRev none s'.rvs) = trunc (some t) (docsRev none s.rvs) := by
  have hpush : ∀ (d : Doc P) (D : List (Doc P)), d.gte = y → trunc (some t) (d :: D) = trunc (some t) D := by
    intro d D hd
    rw [trunc_cons]
    simp [truncDoc, gtAfter, hd, hy]
  unfold buildStep at hs
  split at hs
  · cases hs; rfl
  · dsimp only at hs
    split at hs
    · split at hs
      · cases hs
      · rename_i last rest hr
        cases hs
        rw [hr, docsRev_deleted, trunc_closeAt hy _ (fun d hd => (docsRev_fields _ _ d hd).1)]
    · split at hs
      · rename_i hr
        cases hs
        rw [hr]
        simp only [docsRev]
        rw [hpush _ _ rfl]
      · rename_i last rest hr
        cases hs
        rw [hr]
        dsimp only
        split
        · rfl
        · rw [docsRev_push, hpush _ _ rfl, trunc_closeAt hy _ (fun d hd => (docsRev_fields _ _ d hd).1)]

theorem buildLoop_trunc {h : List (Int × Dict)} {opts : List (Int × ParsingOptions)} {first t : Int} :
    ∀ (vs : List Int) {s s' : BuildState P}, (∀ v ∈ vs, t < v) → buildLoop X id h opts first s vs = .ok s' →
      trunc (some t) (docsRev none s'.rvs) = trunc (some t) (docsRev none s.rvs)
  | [], s, s', _, hs => by cases hs; rfl
  | v :: vs, s, s', hv, hs => by
    simp only [buildLoop] at hs
    split at hs
    · cases hs
    · rename_i st hst
      rw [buildLoop_trunc vs (fun w hw => hv w (List.mem_cons_of_mem _ hw)) hs,
        buildStep_trunc (hv v List.mem_cons_self) hst]

theorem trunc_reverse (after : Option Int) (D : List (Doc P)) : trunc after D.reverse = (trunc after D).reverse :=
  List.filterMap_reverse

theorem aget_filter {α : Type} {t : Int} {l : List (Int × α)} (hn : (l.map Prod.fst).Nodup) {v : Int} (hv : v ≤ t) :
    aget v (l.filter (fun x => decide (x.1 ≤ t))) = aget v l := by
  have hn' : ((l.filter (fun x => decide (x.1 ≤ t))).map Prod.fst).Nodup :=
    (List.Sublist.map _ List.filter_sublist).nodup hn
  cases h : aget v l with
  | none =>
    rw [aget_eq_none_iff] at h ⊢
    intro hm
    obtain ⟨a, ha⟩ := exists_of_key hm
    exact h (mem_keys (List.mem_filter.1 ha).1)
  | some a => exact aget_of_mem hn' (List.mem_filter.2 ⟨aget_mem h, by simpa using hv⟩)

theorem ValidHist.filter {h : List (Int × Dict)} (hh : ValidHist h) {t : Int}
    (hne : h.filter (fun x => decide (x.1 ≤ t)) ≠ []) : ValidHist (h.filter (fun x => decide (x.1 ≤ t))) := by
  refine ⟨hne, (List.Sublist.map _ List.filter_sublist).nodup hh.nodup, fun v d hm hle => ?_⟩
  refine hh.oldest v d (List.mem_filter.1 hm).1 (fun w e hw => ?_)
  by_cases hwt : w ≤ t
  · exact hle w e (List.mem_filter.2 ⟨hw, by simpa using hwt⟩)
  · have : v ≤ t := by simpa using (List.mem_filter.1 hm).2
    omega

/-- The documents made from a longer history are, as of the old time, those made from the old one. -/
theorem buildFrom_trunc {h : List (Int × Dict)} {opts opts' : List (Int × ParsingOptions)} {t : Int}
    (hh : ValidHist h) (ho' : ValidOptions opts') (ho : ValidOptions opts)
    (hopt : ∀ v o, (v, o) ∈ opts ↔ (v, o) ∈ opts' ∧ v ≤ t) (hne : h.filter (fun x => decide (x.1 ≤ t)) ≠ []) :
    ∃ rvs rvs', buildFrom X id (h.filter (fun x => decide (x.1 ≤ t))) opts = .ok rvs ∧
      buildFrom X id h opts' = .ok rvs' ∧ trunc (some t) (createDocs rvs') = createDocs rvs := by
  have hv := hh.filter hne
  obtain ⟨rvs, f1, x1, h1, _, _, hinv, _, _⟩ := buildFrom_spec (X := X) (id := id) hv ho
  obtain ⟨rvs', f2, x2, h2, _⟩ := buildFrom_spec (X := X) (id := id) hh ho'
  refine ⟨rvs, rvs', h1, h2, ?_⟩
  have hself : trunc (some t) (createDocs rvs) = createDocs rvs := by
    have hk : ∀ v, IsKey (h.filter (fun x => decide (x.1 ≤ t))) opts v → v ≤ t := by
      rintro v (hk | hk)
      · obtain ⟨a, ha⟩ := exists_of_key hk
        simpa using (List.mem_filter.1 ha).2
      · obtain ⟨a, ha⟩ := exists_of_key hk
        exact ((hopt _ _).1 ha).2
    apply trunc_self
    · intro d hd
      have := hk _ (hinv.start d (List.mem_reverse.2 hd)).2
      simp [gtAfter]; omega
    · intro d hd e he
      have := hk _ (hinv.stop d (List.mem_reverse.2 hd) e he).2.2
      simp [gtAfter]; omega
  -- the first versions are the same
  obtain ⟨first, m1, m2, m3⟩ := min_exists (l := akeys (h.filter (fun x => decide (x.1 ≤ t)))) (by simpa [akeys] using hne)
  have hfirst_le : first ≤ t := by
    obtain ⟨a, ha⟩ := exists_of_key m2
    simpa using (List.mem_filter.1 ha).2
  have hmin' : (akeys h).min? = some first := by
    rw [List.min?_eq_some_iff]
    refine ⟨?_, fun w hw => ?_⟩
    · obtain ⟨a, ha⟩ := exists_of_key m2
      exact mem_keys (List.mem_filter.1 ha).1
    · by_cases hwt : w ≤ t
      · obtain ⟨a, ha⟩ := exists_of_key hw
        exact m3 w (mem_keys (List.mem_filter.2 ⟨ha, by simpa using hwt⟩))
      · omega
  obtain ⟨fo, n1, n2, n3⟩ := min_exists (l := akeys opts) (by simpa [akeys] using ho.nonempty)
  have hfo_le : fo ≤ t := by
    obtain ⟨a, ha⟩ := exists_of_key n2
    exact ((hopt _ _).1 ha).2
  have hmino : (akeys opts').min? = some fo := by
    rw [List.min?_eq_some_iff]
    refine ⟨?_, fun w hw => ?_⟩
    · obtain ⟨a, ha⟩ := exists_of_key n2
      exact mem_keys ((hopt _ _).1 ha).1
    · by_cases hwt : w ≤ t
      · obtain ⟨a, ha⟩ := exists_of_key hw
        exact n3 w (mem_keys ((hopt _ _).2 ⟨ha, hwt⟩))
      · omega
  have hgo : ∀ v, v ≤ t → aget v opts = aget v opts' := by
    intro v hvt
    cases hx : aget v opts' with
    | none =>
      rw [aget_eq_none_iff] at hx ⊢
      intro hm
      obtain ⟨a, ha⟩ := exists_of_key hm
      exact hx (mem_keys ((hopt _ _).1 ha).1)
    | some a => exact aget_of_mem ho.nodup ((hopt _ _).2 ⟨aget_mem hx, hvt⟩)
  obtain ⟨a, b, s1, s2, s3⟩ := sortedSet_split (akeys opts' ++ akeys h) (t + 1)
  have hlt := sortedSet_lt (akeys opts' ++ akeys h)
  have hmem : ∀ v, v ∈ sortedSet (akeys opts' ++ akeys h) ↔ v ∈ akeys opts' ∨ v ∈ akeys h := fun v => by
    rw [mem_sortedSet, List.mem_append]
  rw [s1] at hlt hmem
  have hsa : sortedSet (akeys opts ++ akeys (h.filter (fun x => decide (x.1 ≤ t)))) = a := by
    apply sortedSet_eq (List.pairwise_append.1 hlt).1
    intro v
    have h3 : v ∈ a ↔ (v ∈ akeys opts' ∨ v ∈ akeys h) ∧ v ≤ t := by
      rw [← hmem, List.mem_append]
      constructor
      · intro hva; have := s2 v hva; exact ⟨.inl hva, by omega⟩
      · rintro ⟨hva | hvb, hvt⟩
        · exact hva
        · have := s3 v hvb; omega
    rw [h3, List.mem_append]
    constructor
    · rintro (hk | hk)
      · obtain ⟨o, ho⟩ := exists_of_key hk
        have := (hopt _ _).1 ho
        exact ⟨.inl (mem_keys this.1), this.2⟩
      · obtain ⟨o, ho⟩ := exists_of_key hk
        have := List.mem_filter.1 ho
        exact ⟨.inr (mem_keys this.1), by simpa using this.2⟩
    · rintro ⟨hk | hk, hvt⟩
      · obtain ⟨o, ho⟩ := exists_of_key hk
        exact .inl (mem_keys ((hopt _ _).2 ⟨ho, hvt⟩))
      · obtain ⟨o, ho⟩ := exists_of_key hk
        exact .inr (mem_keys (List.mem_filter.2 ⟨ho, by simpa using hvt⟩))
  have e1 := h1
  have e2 := h2
  unfold buildFrom at e1 e2
  simp only [m1, n1, hmin', hmino, aget_filter hh.nodup hfirst_le, hgo fo hfo_le] at e1 e2
  cases hd : aget first h with
  | none => rw [hd] at e1; cases e1
  | some d =>
    cases hof : aget fo opts' with
    | none => rw [hd, hof] at e1; cases e1
    | some o =>
      simp only [hd, hof, hsa, s1, buildLoop_append] at e1 e2
      have hcongr : buildLoop X id (h.filter (fun x => decide (x.1 ≤ t))) opts first ⟨d, o, []⟩ a =
          buildLoop X id h opts' first ⟨d, o, []⟩ a :=
        buildLoop_congr a _ (fun v hv => by
          have := s2 v hv
          exact ⟨aget_filter hh.nodup (by omega), hgo v (by omega)⟩)
      rw [hcongr] at e1
      cases hla : buildLoop X id h opts' first ⟨d, o, []⟩ a with
      | error e => rw [hla] at e1; cases e1
      | ok st =>
        simp only [hla] at e1 e2
        cases hlb : buildLoop X id h opts' first st b with
        | error e => rw [hlb] at e2; cases e2
        | ok st' =>
          simp only [hlb] at e2
          have := buildLoop_trunc (t := t) b (fun v hv => by have := s3 v hv; omega) hlb
          cases e1; cases e2
          rw [createDocs_docsRev, trunc_reverse, this, ← trunc_reverse, ← createDocs_docsRev]
          exact hself

/-! ## The documents of a record of a database -/

/-- The documents for the committed versions of a record. -/
def recDocs (X : Parser P) (opts : List (Int × ParsingOptions)) (c : Coll) (id : PyStr) : List (Doc P) :=
  match histOf c id with
  | [] => []
  | h => match buildFrom X id h opts with
    | .ok rvs => createDocs rvs
    | .error _ => []

theorem recDocs_nil {opts : List (Int × ParsingOptions)} {c : Coll} {id : PyStr} (h : histOf c id = []) :
    recDocs X opts c id = [] := by
  simp [recDocs, h]

theorem recDocs_ok {opts : List (Int × ParsingOptions)} {c : Coll} {id : PyStr} {rvs} (h : histOf c id ≠ [])
    (hb : buildFrom X id (histOf c id) opts = .ok rvs) : recDocs X opts c id = createDocs rvs := by
  unfold recDocs
  split
  · rename_i he; exact absurd he h
  · rw [hb]

theorem DbOk.valid {db : PyStr} {m : Mongo} (h : DbOk db m) {id : PyStr} (hne : histOf (m.data db) id ≠ []) :
    ValidHist (histOf (m.data db) id) := by
  have hd := h.desc id
  have ho := h.oldest id
  generalize histOf (m.data db) id = l at *
  refine ⟨hne, hd.imp (fun h => by omega), fun v d hm hle => ?_⟩
  cases hl : l.getLast? with
  | none => simp at hl; exact absurd hl hne
  | some x =>
    obtain ⟨w, e⟩ := x
    have hmem := List.mem_of_getLast? hl
    have hw := hle w e hmem
    have : (v, d) = (w, e) := by
      obtain ⟨l', rfl⟩ := List.getLast?_eq_some_iff.1 hl
      rcases List.mem_append.1 hm with hm | hm
      · rw [List.map_append, List.pairwise_append] at hd
        have := hd.2.2 v (List.mem_map_of_mem hm) w (by simp)
        omega
      · exact List.mem_singleton.1 hm
    cases this
    exact ho _ _ hl

theorem DbOk.docs {db : PyStr} {m : Mongo} (h : DbOk db m) (X : Parser P) {id : PyStr}
    (hne : histOf (m.data db) id ≠ []) :
    ∃ rvs first x, buildFrom X id (histOf (m.data db) id) (committedOptionsOf db m) = .ok rvs ∧ rvs ≠ [] ∧
      recDocs X (committedOptionsOf db m) (m.data db) id = createDocs rvs ∧
      DocsInv X id (histOf (m.data db) id) (usedOptions first (committedOptionsOf db m))
        (IsKey (histOf (m.data db) id) (committedOptionsOf db m)) x (createDocs rvs).reverse ∧
      (∀ w, IsKey (histOf (m.data db) id) (committedOptionsOf db m) w → w < first ∨ w ≤ x) ∧
      first ∈ akeys (histOf (m.data db) id) := by
  obtain ⟨rvs, first, x, h1, h2, _, h4, h5, h6⟩ := buildFrom_spec (X := X) (id := id) (h.valid hne) h.options
  exact ⟨rvs, first, x, h1, h6, recDocs_ok hne h1, h4, h5, h2⟩

theorem DocsInv.good {hist : List (Int × Dict)} {used : List (Int × ParsingOptions)} {keys : Int → Prop} {x : Int}
    {D : List (Doc P)} (h : DocsInv X id hist used keys x D.reverse) : GoodDocs D := by
  refine ⟨List.pairwise_reverse.1 h.pair, fun d hd e he => (h.stop d (List.mem_reverse.2 hd) e he).1,
    fun d hd => h.fields d (List.mem_reverse.2 hd)⟩

theorem DbOk.good {db : PyStr} {m : Mongo} (h : DbOk db m) (X : Parser P) (id : PyStr) :
    GoodDocs (recDocs X (committedOptionsOf db m) (m.data db) id) := by
  by_cases hne : histOf (m.data db) id = []
  · rw [recDocs_nil hne]; exact .nil
  · obtain ⟨rvs, first, x, _, _, h3, h4, _⟩ := h.docs X hne
    rw [h3]; exact h4.good

/-- The documents of a record start and end at versions of its data or of the options. -/
theorem DbOk.keys {db : PyStr} {m : Mongo} (h : DbOk db m) (X : Parser P) {id : PyStr} {d : Doc P}
    (hd : d ∈ recDocs X (committedOptionsOf db m) (m.data db) id) :
    IsKey (histOf (m.data db) id) (committedOptionsOf db m) d.gte ∧
    ∀ e, d.lt = some e → IsKey (histOf (m.data db) id) (committedOptionsOf db m) e := by
  by_cases hne : histOf (m.data db) id = []
  · rw [recDocs_nil hne] at hd; cases hd
  · obtain ⟨rvs, first, x, _, _, h3, h4, _⟩ := h.docs X hne
    rw [h3] at hd
    have hd := List.mem_reverse.2 hd
    exact ⟨(h4.start d hd).2, fun e he => (h4.stop d hd e he).2.2⟩

/-- The documents at two times. -/
theorem LaterFor.trunc {db : PyStr} {t : Int} {m m' : Mongo} {id : PyStr} (h : LaterFor X db id t m m') (hm : DbOk db m) (hm' : DbOk db m') :
    Splitgill.trunc (some t) (recDocs X (committedOptionsOf db m') (m'.data db) id) =
      recDocs X (committedOptionsOf db m) (m.data db) id := by
  have hs := h.hist
  by_cases hne : histOf (m.data db) id = []
  · have hf : (histOf (m'.data db) id).filter (fun vd => decide (vd.1 ≤ t)) = [] := by
      rw [hne] at hs
      cases hs' : (histOf (m'.data db) id).filter (fun vd => decide (vd.1 ≤ t)) with
      | nil => rfl
      | cons a b => rw [hs'] at hs; cases hs
    rw [recDocs_nil hne]
    by_cases hne' : histOf (m'.data db) id = []
    · rw [recDocs_nil hne']; rfl
    · obtain ⟨rvs, first, x, _, _, h3, h4, h5, h6⟩ := hm'.docs X hne'
      rw [h3]
      simp only [Splitgill.trunc, List.filterMap_eq_nil_iff]
      intro d hd
      have hd' := List.mem_reverse.2 hd
      have hcov : d.covers d.gte := by
        refine ⟨Int.le_refl _, fun e he => (h4.stop d hd' e he).1⟩
      obtain ⟨a, ⟨w, hw1, hw2, _⟩, _⟩ := (h4.alive d.gte (h4.start d hd').1).1 ⟨d, hd', hcov⟩
      have hwt : ¬ w ≤ t := by
        intro hwt
        have : (w, a) ∈ (histOf (m'.data db) id).filter (fun vd => decide (vd.1 ≤ t)) :=
          List.mem_filter.2 ⟨hw1, by simpa using hwt⟩
        rw [hf] at this; cases this
      have hlt : t < d.gte := by omega
      simp [truncDoc, gtAfter, hlt]
  · have hfne : (histOf (m'.data db) id).filter (fun vd => decide (vd.1 ≤ t)) ≠ [] := by
      intro hf
      rw [hf] at hs
      cases hs' : histOf (m.data db) id with
      | nil => exact hne hs'
      | cons a b => rw [hs'] at hs; cases hs
    have hne' : histOf (m'.data db) id ≠ [] := by
      intro he; rw [he] at hfne; exact hfne rfl
    obtain ⟨rvs, rvs', h1, h2, h3⟩ := buildFrom_trunc (X := X) (id := id) (hm'.valid hne') hm'.options hm.options h.opts hfne
    rw [recDocs_ok hne' h2, h3, recDocs_ok hne (by rw [buildFrom_same hs]; exact h1)]

theorem Later.trunc {db : PyStr} {t : Int} {m m' : Mongo} (h : Later X db t m m') (hm : DbOk db m) (hm' : DbOk db m')
    (id : PyStr) : Splitgill.trunc (some t) (recDocs X (committedOptionsOf db m') (m'.data db) id) =
      recDocs X (committedOptionsOf db m) (m.data db) id := (h.one id).trunc hm hm'

end
end Splitgill
