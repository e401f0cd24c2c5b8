import Verif.Proof.Index
/-!
# The loop of `RecordVersions.build`
-/

namespace Splitgill

/-- The options that the loop looks at: the first ones, and those not before the first data. -/
def usedOptions (first : Int) (opts : List (Int × ParsingOptions)) : List (Int × ParsingOptions) :=
  opts.filter (fun wo => decide (first ≤ wo.1) || opts.all (fun wo' => decide (wo.1 ≤ wo'.1)))

theorem mem_usedOptions {first : Int} {opts : List (Int × ParsingOptions)} {w : Int} {o : ParsingOptions} :
    (w, o) ∈ usedOptions first opts ↔ (w, o) ∈ opts ∧ (first ≤ w ∨ ∀ w' o', (w', o') ∈ opts → w ≤ w') := by
  simp [usedOptions, List.mem_filter]

theorem usedOptions_nodup {first : Int} {opts : List (Int × ParsingOptions)} (h : (opts.map Prod.fst).Nodup) :
    ((usedOptions first opts).map Prod.fst).Nodup :=
  (List.Sublist.map _ List.filter_sublist).nodup h

section
variable {P : Type} {X : Parser P} {id : PyStr} {hist : List (Int × Dict)} {opts : List (Int × ParsingOptions)}

/-- The versions of data and options. -/
def IsKey (hist : List (Int × Dict)) (opts : List (Int × ParsingOptions)) (v : Int) : Prop :=
  v ∈ akeys hist ∨ v ∈ akeys opts

structure BInv (X : Parser P) (id : PyStr) (hist : List (Int × Dict)) (opts : List (Int × ParsingOptions))
    (first x : Int) (st : BuildState P) : Prop where
  docs : DocsInv X id hist (usedOptions first opts) (IsKey hist opts) x (docsRev none st.rvs)
  data : (∃ w d, (w, d) ∈ hist ∧ w ≤ x) → AsOf hist x st.data
  options : OptionsAsOf (usedOptions first opts) x st.options

theorem mem_keys {α : Type} {l : List (Int × α)} {w a} (h : (w, a) ∈ l) : w ∈ akeys l :=
  List.mem_map_of_mem h

theorem exists_of_key {α : Type} {l : List (Int × α)} {w} (h : w ∈ akeys l) : ∃ a, (w, a) ∈ l := by
  obtain ⟨⟨w', a⟩, h1, h2⟩ := List.mem_map.1 h
  cases h2; exact ⟨a, h1⟩

variable {first x y : Int} (hh : ValidHist hist) (ho : ValidOptions opts)
  (hf : first ∈ akeys hist) (hmin : ∀ w ∈ akeys hist, first ≤ w)
include hh ho hf hmin

theorem buildStep_inv {st : BuildState P} (h : BInv X id hist opts first x st) (hxy : x < y) (hy : first ≤ y)
    (hk : IsKey hist opts y) (hg : ∀ w, IsKey hist opts w → first ≤ w → w < y → w ≤ x)
    (hx1 : first ≤ y → first < y → first ≤ x) (hx0 : first - 1 ≤ x) :
    ∃ st', buildStep X id hist opts first st y = .ok st' ∧ BInv X id hist opts first y st' := by
  have hgh : ∀ w a, (w, a) ∈ hist → w < y → w ≤ x := fun w a hm hw =>
    hg w (.inl (mem_keys hm)) (hmin w (mem_keys hm)) hw
  have hgu : ∀ w a, (w, a) ∈ usedOptions first opts → w < y → w ≤ x := fun w a hm hw => by
    by_cases hwf : first ≤ w
    · exact hg w (.inr (mem_keys (mem_usedOptions.1 hm).1)) hwf hw
    · omega
  obtain ⟨data, hdata⟩ : ∃ data, data = (aget y hist).getD st.data := ⟨_, rfl⟩
  obtain ⟨options, hoptions⟩ : ∃ options, options = (aget y opts).getD st.options := ⟨_, rfl⟩
  have hd : AsOf hist y data := by
    cases hy' : aget y hist with
    | some d => rw [hdata, hy']; exact AsOf.here (aget_mem hy')
    | none =>
      rw [hdata, hy']
      have hne : first ≠ y := by
        rintro rfl
        exact (aget_eq_none_iff.1 hy') hf
      obtain ⟨a, ha⟩ := exists_of_key hf
      refine (AsOf.gap (by omega) (fun w a hm hw => ?_) _).2 (h.data ⟨first, a, ha, by omega⟩)
      refine hgh w a hm ?_
      have : w ≠ y := by
        rintro rfl
        exact (aget_eq_none_iff.1 hy') (mem_keys hm)
      omega
  have hopt : OptionsAsOf (usedOptions first opts) y options := by
    cases hy' : aget y opts with
    | some d => rw [hoptions, hy']; exact .inl (AsOf.here (mem_usedOptions.2 ⟨aget_mem hy', .inl hy⟩))
    | none =>
      rw [hoptions, hy']
      refine (OptionsAsOf.gap (by omega) (fun w a hm hw => ?_) _).2 h.options
      refine hgu w a hm ?_
      have : w ≠ y := by
        rintro rfl
        exact (aget_eq_none_iff.1 hy') (mem_keys (mem_usedOptions.1 hm).1)
      omega
  unfold buildStep
  rw [if_neg (by omega)]
  dsimp only
  rw [← hdata, ← hoptions]
  have hinv := h.docs
  have hun := usedOptions_nodup (first := first) ho.nodup
  cases hr : st.rvs with
  | nil =>
    rw [hr] at hinv
    split
    · rename_i he
      exfalso
      have he : data = [] := by simpa using he
      by_cases hfy : first = y
      · subst hfy
        obtain ⟨a, ha⟩ := exists_of_key hf
        have := (AsOf.here ha).unique hh.nodup hd
        exact hh.oldest first a ha (fun w e hm => hmin w (mem_keys hm)) (this.trans he)
      · have hfx : first ≤ x := hx1 hy (by omega)
        obtain ⟨a, ha⟩ := exists_of_key hf
        have hal : Alive hist first := ⟨a, AsOf.here ha, hh.oldest first a ha (fun w e hm => hmin w (mem_keys hm))⟩
        obtain ⟨d, hd, _⟩ := (hinv.alive first hfx).2 hal
        cases hd
    · rename_i he
      have he : data ≠ [] := by simpa using he
      refine ⟨_, rfl, ?_, fun _ => hd, hopt⟩
      exact hinv.push hxy hk hgh hgu hh.nodup hun hd he hopt rfl (by simp [docsRev])
  | cons last rest =>
    rw [hr] at hinv
    split
    · rename_i he
      have he : data = [] := by simpa using he
      refine ⟨_, rfl, ?_, fun _ => hd, hopt⟩
      have hna : ¬ Alive hist y := by
        rintro ⟨d, h1, h2⟩
        exact h2 ((h1.unique hh.nodup hd).trans he)
      have := hinv.close hxy hk hgh hgu hna
      rw [← docsRev_deleted] at this
      exact this
    · rename_i he
      have he : data ≠ [] := by simpa using he
      refine ⟨_, rfl, ?_, fun _ => hd, hopt⟩
      dsimp only
      split
      · rename_i heq
        simp only [RecordVersion.eq, Option.isNone_none, Bool.true_and, Bool.and_eq_true, Option.isNone_iff_eq_none] at heq
        refine hinv.keep hxy hk hgh hgu ?_ ⟨data, hd, he⟩ ?_
        · simp [RecordVersion.createDoc, RecordVersion.versionEnd, heq.1]
        · intro a o ha ho'
          rw [ha.unique hh.nodup hd, ho'.unique hun hopt]
          refine .inr ?_
          have := heq.2
          simp only [Bool.or_eq_true, Bool.and_eq_true] at this
          rcases this with h | ⟨_, h⟩
          · exact .inl h
          · exact .inr h
      · rename_i heq
        rw [docsRev_push]
        refine hinv.push hxy hk hgh hgu hh.nodup hun hd he hopt rfl ?_
        intro d hd hlt
        rcases List.mem_cons.1 hd with rfl | hd
        · simp only [RecordVersion.eq, Option.isNone_none, Bool.true_and, Bool.and_eq_true, Option.isNone_iff_eq_none,
            not_and, Bool.not_eq_true] at heq
          have hn : last.deletedAt = none := by
            simp only [RecordVersion.createDoc, RecordVersion.versionEnd] at hlt
            split at hlt
            · cases hlt
            · assumption
          have := heq hn
          simp only [Bool.or_eq_false_iff, Bool.and_eq_false_iff] at this
          refine ⟨this.1, fun hy' => this.2.resolve_left ?_⟩
          rw [aget_eq_none_iff.2 (show y ∉ akeys hist from hy')]
          simp
        · exact absurd hlt (hinv.open_head hd)

theorem buildLoop_inv : ∀ (vs : List Int) (x : Int) (st : BuildState P), BInv X id hist opts first x st →
    vs.Pairwise (· < ·) → (∀ v ∈ vs, x < v ∧ first ≤ v ∧ IsKey hist opts v) →
    (∀ w, IsKey hist opts w → first ≤ w → w ≤ x ∨ w ∈ vs) → first - 1 ≤ x →
    ∃ st' x', buildLoop X id hist opts first st vs = .ok st' ∧ BInv X id hist opts first x' st' ∧
      (∀ w, IsKey hist opts w → w < first ∨ w ≤ x')
  | [], x, st, h, _, _, hc, _ => ⟨st, x, rfl, h, fun w hw => by
      by_cases hf : first ≤ w
      · rcases hc w hw hf with h | h
        · exact .inr h
        · cases h
      · exact .inl (by omega)⟩
  | y :: vs, x, st, h, hs, hv, hc, hx0 => by
    have hs' := List.pairwise_cons.1 hs
    obtain ⟨h1, h2, h3⟩ := hv y List.mem_cons_self
    have hg : ∀ w, IsKey hist opts w → first ≤ w → w < y → w ≤ x := by
      intro w hw hfw hwy
      rcases hc w hw hfw with h | h
      · exact h
      · rcases List.mem_cons.1 h with rfl | h
        · omega
        · have := hs'.1 w h; omega
    obtain ⟨st', h4, h5⟩ := buildStep_inv hh ho hf hmin h h1 h2 h3 hg
      (fun _ hlt => hg first (.inl hf) (Int.le_refl _) hlt) hx0
    obtain ⟨st'', x', h6, h7⟩ := buildLoop_inv vs y st' h5 hs'.2
      (fun v hm => ⟨hs'.1 v hm, (hv v (List.mem_cons_of_mem _ hm)).2⟩)
      (fun w hw hfw => by
        rcases hc w hw hfw with h | h
        · exact .inl (by omega)
        · rcases List.mem_cons.1 h with rfl | h
          · exact .inl (Int.le_refl _)
          · exact .inr h) (by omega)
    exact ⟨st'', x', by simp only [buildLoop, h4]; exact h6, h7⟩

omit hh ho hf hmin in
theorem buildLoop_skip {st : BuildState P} : ∀ (vs : List Int) (rest : List Int), (∀ v ∈ vs, v < first) →
    buildLoop X id hist opts first st (vs ++ rest) = buildLoop X id hist opts first st rest
  | [], _, _ => rfl
  | v :: vs, rest, h => by
    simp only [List.cons_append, buildLoop, buildStep, if_pos (h v List.mem_cons_self)]
    exact buildLoop_skip vs rest (fun w hw => h w (List.mem_cons_of_mem _ hw))

end

/-! ## `sorted(set(...))` -/

theorem setFold_mem (x : Int) : ∀ (l s : List Int),
    x ∈ l.foldl (fun s x => if x ∈ s then s else s ++ [x]) s ↔ x ∈ s ∨ x ∈ l
  | [], s => by simp
  | a :: l, s => by
    rw [List.foldl_cons, setFold_mem x l]
    split
    · rename_i h
      simp only [List.mem_cons]
      constructor
      · rintro (h | h)
        · exact .inl h
        · exact .inr (.inr h)
      · rintro (h' | rfl | h')
        · exact .inl h'
        · exact .inl h
        · exact .inr h'
    · simp only [List.mem_append, List.mem_cons, List.not_mem_nil, or_false]
      tauto

theorem setFold_nodup : ∀ (l s : List Int), s.Nodup →
    (l.foldl (fun s x => if x ∈ s then s else s ++ [x]) s).Nodup
  | [], s, h => h
  | a :: l, s, h => by
    rw [List.foldl_cons]
    apply setFold_nodup l
    split
    · exact h
    · rename_i ha
      rw [List.nodup_append]
      refine ⟨h, by simp, fun a' h1 b h2 => ?_⟩
      rw [List.mem_singleton.1 h2]
      rintro rfl; exact ha h1

theorem mem_sortedSet {x : Int} {l : List Int} : x ∈ sortedSet l ↔ x ∈ l := by
  unfold sortedSet sortAsc
  rw [(sortBy_perm _ _).mem_iff, setFold_mem]; simp

theorem sortedSet_lt (l : List Int) : (sortedSet l).Pairwise (· < ·) := by
  have h1 : (sortedSet l).Pairwise (fun a b => decide (a ≤ b) = true) := by
    unfold sortedSet sortAsc
    apply sortBy_pairwise
    · intro a b h; simp only [decide_eq_false_iff_not] at h; simp only [decide_eq_true_eq]; omega
    · intro a b c h h'; simp only [decide_eq_true_eq] at *; omega
  have h2 : (sortedSet l).Nodup := by
    unfold sortedSet sortAsc
    exact ((sortBy_perm _ _).nodup_iff).2 (setFold_nodup l [] .nil)
  exact h1.imp₂ (fun a b h h' => by simp only [decide_eq_true_eq] at h; omega) h2

theorem sortedSet_split (l : List Int) (first : Int) : ∃ a b, sortedSet l = a ++ b ∧ (∀ v ∈ a, v < first) ∧
    (∀ v ∈ b, first ≤ v) := by
  have : ∀ s : List Int, s.Pairwise (· < ·) → ∃ a b, s = a ++ b ∧ (∀ v ∈ a, v < first) ∧ (∀ v ∈ b, first ≤ v) := by
    intro s
    induction s with
    | nil => intro _; exact ⟨[], [], rfl, by simp, by simp⟩
    | cons x s ih =>
      intro h
      have h' := List.pairwise_cons.1 h
      by_cases hx : x < first
      · obtain ⟨a, b, h1, h2, h3⟩ := ih h'.2
        refine ⟨x :: a, b, by simp [h1], fun v hv => ?_, h3⟩
        rcases List.mem_cons.1 hv with rfl | hv
        · exact hx
        · exact h2 v hv
      · refine ⟨[], x :: s, rfl, by simp, fun v hv => ?_⟩
        rcases List.mem_cons.1 hv with rfl | hv
        · omega
        · have := h'.1 v hv; omega
  exact this _ (sortedSet_lt l)

theorem min_exists {l : List Int} (h : l ≠ []) : ∃ m, l.min? = some m ∧ m ∈ l ∧ ∀ w ∈ l, m ≤ w := by
  cases hm : l.min? with
  | none => exact absurd (List.min?_eq_none_iff.1 hm) h
  | some m =>
    have := List.min?_eq_some_iff.1 hm
    exact ⟨m, rfl, this.1, this.2⟩

section
variable {P : Type} {X : Parser P} {id : PyStr} {hist : List (Int × Dict)} {opts : List (Int × ParsingOptions)}

/-- The state before the loop meets the invariant. -/
theorem BInv.init (hh : ValidHist hist) {first fo : Int} {d : Dict} {o : ParsingOptions}
    (hmin : ∀ w ∈ akeys hist, first ≤ w) (hfo : (fo, o) ∈ opts) (hfm : ∀ w ∈ akeys opts, fo ≤ w) :
    BInv X id hist opts first (first - 1) ⟨d, o, []⟩ := by
  have hna : ∀ v, v ≤ first - 1 → ¬ Alive hist v := by
    rintro v hv ⟨a, ⟨w, h1, h2, _⟩, _⟩
    have := hmin w (mem_keys h1); omega
  refine ⟨⟨by simp [docsRev], by simp [docsRev], by simp [docsRev], by simp [docsRev], by simp [docsRev], fun v hv => ?_,
    by simp [docsRev], by simp [docsRev], by simp [docsRev]⟩, ?_, ?_⟩
  · simp [docsRev, hna v hv]
  · rintro ⟨w, a, h1, h2⟩
    have := hmin w (mem_keys h1); omega
  · have hu : (fo, o) ∈ usedOptions first opts := mem_usedOptions.2 ⟨hfo, .inr (fun w' o' h => hfm _ (mem_keys h))⟩
    by_cases hlt : fo ≤ first - 1
    · refine .inl ⟨fo, hu, hlt, fun w' y hm hw => ?_⟩
      rcases (mem_usedOptions.1 hm).2 with h | h
      · omega
      · exact h _ _ hfo
    · refine .inr ⟨fun w y hm => ?_, fo, hu, fun w' y hm => hfm _ (mem_keys (mem_usedOptions.1 hm).1)⟩
      have := hfm _ (mem_keys (mem_usedOptions.1 hm).1); omega

/-- `RecordVersions.build` succeeds; its documents satisfy the invariant for all versions. -/
theorem buildFrom_spec (hh : ValidHist hist) (ho : ValidOptions opts) :
    ∃ rvs first x, buildFrom X id hist opts = .ok rvs ∧ first ∈ akeys hist ∧ (∀ w ∈ akeys hist, first ≤ w) ∧
      DocsInv X id hist (usedOptions first opts) (IsKey hist opts) x (createDocs rvs).reverse ∧
      (∀ w, IsKey hist opts w → w < first ∨ w ≤ x) ∧ rvs ≠ [] := by
  obtain ⟨first, h1, h2, h3⟩ := min_exists (l := akeys hist) (by simpa [akeys] using hh.nonempty)
  obtain ⟨fo, h4, h5, h6⟩ := min_exists (l := akeys opts) (by simpa [akeys] using ho.nonempty)
  obtain ⟨d, hd⟩ := exists_of_key h2
  obtain ⟨o, ho'⟩ := exists_of_key h5
  obtain ⟨a, b, hs1, hs2, hs3⟩ := sortedSet_split (akeys opts ++ akeys hist) first
  have hlt := sortedSet_lt (akeys opts ++ akeys hist)
  have hmem : ∀ v, v ∈ sortedSet (akeys opts ++ akeys hist) ↔ IsKey hist opts v := fun v => by
    rw [mem_sortedSet, List.mem_append]; exact Or.comm
  rw [hs1] at hlt hmem
  obtain ⟨st, x, h7, h8, h9⟩ := buildLoop_inv (X := X) (id := id) hh ho h2 h3 b (first - 1) ⟨d, o, []⟩
    (BInv.init hh h3 ho' h6) (List.pairwise_append.1 hlt).2.1
    (fun v hv => ⟨by have := hs3 v hv; omega, hs3 v hv, (hmem v).1 (List.mem_append_right _ hv)⟩)
    (fun w hw hf => by
      rcases List.mem_append.1 ((hmem w).2 hw) with h | h
      · have := hs2 w h; omega
      · exact .inr h) (Int.le_refl _)
  refine ⟨st.rvs.reverse, first, x, ?_, h2, h3, ?_, h9, ?_⟩
  · simp only [buildFrom, h1, h4, aget_of_mem (d := hist) hh.nodup hd, aget_of_mem (d := opts) ho.nodup ho', hs1,
      buildLoop_skip a b hs2, h7]
  · rw [createDocs_docsRev, List.reverse_reverse]; exact h8.docs
  · intro he
    have he : st.rvs = [] := by simpa using he
    have hal : Alive hist first := ⟨d, AsOf.here hd, hh.oldest first d hd (fun w e hm => h3 w (mem_keys hm))⟩
    have hfx : first ≤ x := by
      rcases h9 first (.inl h2) with h | h
      · omega
      · exact h
    obtain ⟨d', hd', _⟩ := (h8.docs.alive first hfx).2 hal
    rw [he] at hd'; cases hd'

theorem intVersions_spec : ∀ (l : List (Int × Dict)), intVersions (l.map (fun vd => (some vd.1, vd.2))) = .ok l
  | [] => rfl
  | (v, d) :: r => by
    simp only [List.map_cons, intVersions]
    rw [intVersions_spec r]

theorem intVersions_ok : ∀ {items : List VersionedData} {l}, intVersions items = .ok l →
    items = l.map (fun vd => (some vd.1, vd.2))
  | [], l, h => by cases h; rfl
  | (none, _) :: _, l, h => by cases h
  | (some v, d) :: r, l, h => by
    simp only [intVersions] at h
    split at h
    · cases h
    · rename_i r' hr
      cases h
      rw [intVersions_ok hr]; rfl

theorem build_eq_buildFrom {record : MongoRecord} {hist : List (Int × Dict)}
    (hi : record.iter = .ok (hist.map (fun vd => (some vd.1, vd.2)))) (hn : (hist.map Prod.fst).Nodup)
    (opts : List (Int × ParsingOptions)) : build X record opts = buildFrom X record.id hist opts := by
  simp only [build, hi, intVersions_spec, aofList_nodup (l := hist) hn]

end
end Splitgill
