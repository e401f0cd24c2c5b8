import Verif.Proof.Index2
/-!
# Lemmas: the documents of a record divide the time
-/

namespace Splitgill

section
variable {P : Type} {X : Parser P} {id : PyStr}

theorem effectiveOptions_eq {hist : List (Int × Dict)} {first : Int} (hf : first ∈ akeys hist)
    (hmin : ∀ w ∈ akeys hist, first ≤ w) (opts : List (Int × ParsingOptions)) :
    effectiveOptions hist opts = usedOptions first opts := by
  unfold effectiveOptions usedOptions
  apply List.filter_congr
  rintro ⟨w, o⟩ _
  congr 1
  rw [Bool.eq_iff_iff]
  simp only [List.any_eq_true, decide_eq_true_eq]
  constructor
  · rintro ⟨⟨v, d⟩, hm, hle⟩
    have := hmin v (mem_keys hm)
    dsimp only at hle; omega
  · intro h
    obtain ⟨d, hd⟩ := exists_of_key hf
    exact ⟨_, hd, h⟩

theorem effectiveOptions_self {hist : List (Int × Dict)} {opts : List (Int × ParsingOptions)}
    (h : OptionsNotChangedBefore hist opts) : effectiveOptions hist opts = opts := by
  rw [effectiveOptions, List.filter_eq_self]
  rintro ⟨w, o⟩ hm
  simp only [Bool.or_eq_true, List.any_eq_true, decide_eq_true_eq, List.all_eq_true]
  by_cases hw : ∃ x ∈ hist, x.1 ≤ w
  · exact .inl hw
  · refine .inr ?_
    rintro ⟨w', o'⟩ hm'
    dsimp only
    by_cases hw' : w ≤ w'
    · exact hw'
    · have := h w w' (List.mem_map_of_mem hm) (List.mem_map_of_mem hm') (fun v hv => by
        obtain ⟨x, hx, rfl⟩ := List.mem_map.1 hv
        have : ¬ x.1 ≤ w := fun hle => hw ⟨x, hx, hle⟩
        omega)
      omega

theorem partitions_of_inv {hist : List (Int × Dict)} {opts : List (Int × ParsingOptions)} {first x : Int}
    {rvs : List (RecordVersion P)} (h2 : first ∈ akeys hist) (h3 : ∀ w ∈ akeys hist, first ≤ w)
    (h4 : DocsInv X id hist (usedOptions first opts) (IsKey hist opts) x (createDocs rvs).reverse)
    (h5 : ∀ w, IsKey hist opts w → w < first ∨ w ≤ x) :
    PartitionsTime X id hist (effectiveOptions hist opts) (createDocs rvs) := by
  have heff := effectiveOptions_eq h2 h3 opts
  have hx : first ≤ x := by
    rcases h5 first (.inl h2) with h | h
    · omega
    · exact h
  have hcov : ∀ v, ((∃ d ∈ createDocs rvs, d.covers v) ↔ Alive hist v) ∧ ∀ d ∈ createDocs rvs, d.covers v →
      ∀ a o, AsOf hist v a → OptionsAsOf (effectiveOptions hist opts) v o → X.same d.parsed (X.parse a o) := by
    intro v
    have := h4.upTo (v := v) (fun w a hm hw => by
      rcases h5 w (.inl (mem_keys hm)) with h | h
      · omega
      · exact h) (fun w a hm hw => by
      rcases h5 w (.inr (mem_keys (mem_usedOptions.1 hm).1)) with h | h
      · omega
      · exact h)
    rw [heff]
    simpa only [List.mem_reverse] using this
  have hrange : ∀ d ∈ createDocs rvs, ∀ e, d.lt = some e → d.gte < e := fun d hd e he =>
    (h4.stop d (List.mem_reverse.2 hd) e he).1
  have hge : ∀ d ∈ createDocs rvs, first ≤ d.gte := by
    intro d hd
    obtain ⟨a, ⟨w, hw1, hw2, _⟩, _⟩ := (hcov d.gte).1.1 ⟨d, hd, Int.le_refl _, fun e he => hrange d hd e he⟩
    have := h3 w (mem_keys hw1)
    omega
  have hkey : ∀ v, first ≤ v → IsKey hist opts v → v ∈ hist.map Prod.fst ∨ v ∈ (effectiveOptions hist opts).map Prod.fst := by
    rintro v hv (h | h)
    · exact .inl h
    · obtain ⟨o, ho⟩ := exists_of_key h
      exact .inr (by rw [heff]; exact mem_keys (mem_usedOptions.2 ⟨ho, .inl hv⟩))
  refine ⟨fun d hd => ?_, hrange, ?_, fun v => (hcov v).1, fun v => (hcov v).2,
    fun d hd a o ha ho => h4.start_alive d (List.mem_reverse.2 hd) a o ha (by rw [← heff]; exact ho), fun d hd v hv => ?_, ?_, ?_⟩
  · have hd' := List.mem_reverse.2 hd
    exact ⟨h4.ids d hd', h4.fields d hd'⟩
  · refine (List.pairwise_reverse.1 h4.pair).imp ?_
    rintro a b ⟨e, he, hle⟩ v ⟨ha, hb⟩
    have := ha.2 e he
    have := hb.1
    omega
  · have hd' := List.mem_reverse.2 hd
    rcases hv with rfl | hv
    · exact hkey _ (hge d hd) (h4.start d hd').2
    · have := hge d hd
      have := hrange d hd v hv
      exact hkey _ (by omega) (h4.stop d hd' v hv).2.2
  · exact List.pairwise_reverse.1 h4.distinct
  · have hp : (createDocs rvs).reverse.Pairwise (fun a b => b.version < a.version) := by
      refine List.Pairwise.imp_of_mem ?_ h4.pair
      rintro a b ha hb ⟨e, he, hle⟩
      rw [(h4.fields a ha).1, (h4.fields b hb).1]
      have := (h4.stop b hb e he).1
      omega
    exact List.pairwise_reverse.1 hp

theorem buildFrom_partitions {hist : List (Int × Dict)} {opts : List (Int × ParsingOptions)} (hh : ValidHist hist)
    (ho : ValidOptions opts) : ∃ rvs, buildFrom X id hist opts = .ok rvs ∧
      PartitionsTime X id hist (effectiveOptions hist opts) (createDocs rvs) := by
  obtain ⟨rvs, first, x, h1, h2, h3, h4, h5, _⟩ := buildFrom_spec (X := X) (id := id) hh ho
  exact ⟨rvs, h1, partitions_of_inv h2 h3 h4 h5⟩

end
end Splitgill
