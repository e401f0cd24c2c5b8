import Verif.Proof.Filter
import Verif.Proof.Fields
import Verif.Props.Parse
/-!
# Lemmas: the fields of what is found
-/

namespace Splitgill
open Splitgill.Props

theorem howMany_map {δ ι : Type} {docs : List δ} {ids : List ι} {key : δ → ι} (h1 : (docs.map key).Nodup) (h2 : ids.Nodup)
    (h3 : ∀ d ∈ docs, key d ∈ ids) {P : δ → Prop} {P' : ι → Prop} (h4 : ∀ d ∈ docs, (P d ↔ P' (key d)))
    (h5 : ∀ i, P' i → i ∈ docs.map key) : howMany docs P = howMany ids P' := by
  unfold howMany
  rw [← List.length_map (f := key)]
  refine List.Perm.length_eq ((List.perm_ext_iff_of_nodup (h1.sublist (List.filter_sublist.map _)) (h2.filter _)).2 fun i => ?_)
  simp only [List.mem_map, List.mem_filter, decide_eq_true_eq]
  constructor
  · rintro ⟨d, ⟨hd, hP⟩, rfl⟩
    exact ⟨h3 d hd, (h4 d hd).1 hP⟩
  · rintro ⟨_, hP⟩
    obtain ⟨d, hd, rfl⟩ := List.mem_map.1 (h5 i hP)
    exact ⟨d, ⟨hd, (h4 d hd).2 hP⟩, rfl⟩

theorem ListsFields.transfer {T δ ι : Type} [DecidableEq T] {name : T → PyStr} {docs : List δ} {ids : List ι} {key : δ → ι}
    (h1 : (docs.map key).Nodup) (h2 : ids.Nodup) (h3 : ∀ d ∈ docs, key d ∈ ids) {occ : δ → List PyStr → PyStr → Prop}
    {occ' : ι → List PyStr → PyStr → Prop} (h4 : ∀ d ∈ docs, ∀ p t, occ d p t ↔ occ' (key d) p t)
    (h5 : ∀ i p t, occ' i p t → i ∈ docs.map key) {fs : List (FieldCounts T)} (h : ListsFields name docs occ fs) :
    ListsFields name ids occ' fs where
  once := h.once
  paths s := by
    rw [h.paths]
    constructor
    · rintro ⟨d, hd, p, t, ho, e⟩
      exact ⟨key d, h3 d hd, p, t, (h4 d hd p t).1 ho, e⟩
    · rintro ⟨i, _, p, t, ho, e⟩
      obtain ⟨d, hd, rfl⟩ := List.mem_map.1 (h5 i p t ho)
      exact ⟨d, hd, p, t, (h4 d hd p t).2 ho, e⟩
  count f hf := by
    rw [h.count f hf]
    refine howMany_map h1 h2 h3 (fun d hd => ?_) (fun i ⟨p, t, ho, _⟩ => h5 i p t ho)
    simp only [h4 d hd]
  types f hf t := by
    rw [h.types f hf t]
    refine howMany_map h1 h2 h3 (fun d hd => ?_) (fun i ⟨p, ho, _⟩ => h5 i p _ ho)
    simp only [h4 d hd]
  order := h.order

section
variable {E : ParseEnv} (hE : E.IgnoresOrder) (hS : E.ScalarHints) {db : PyStr} {m : Mongo} {s : Store}
  {hi : Option Int} {U : Unicode} {rs : List Record} {hn : NoPunsAmong U rs}
  (hl : LifeInv (fun id => (strictClass (placesOf U rs hn id)).named) db m s hi) (hm : DbOk db m) {es : ES (Option ParsedData)}
  (h2 : LatestOk es) (h3 : IndexesRecords (realParser E) db m ((m.data db).filter (fun r => r.version.isSome)) es)
include hE hS hl hm h2 h3

/-- The data and options of the documents that are found, and what they are parsed to. -/
theorem LifeInv.found_types (v : Int) : ∃ (src : PyStr → Dict) (opts : PyStr → ParsingOptions), ∀ d ∈ (es.search (.version v)).run es,
    (∀ a, AsOf (s d.id).committed v a ↔ a = src d.id) ∧ src d.id ≠ [] ∧ (s d.id).pending = none ∧
    OptionsAsOf (effectiveOptions (s d.id).committed (committedOptionsOf db m)) v (opts d.id) ∧
    (Value.dict (src d.id)).wf = true ∧ FieldNames (.dict (src d.id)) ∧
    ∃ q, parse E (opts d.id) (src d.id) = .ok q ∧ d.dataTypes = q.dataTypes ∧ d.parsedTypes = q.parsedTypes := by
  have key : ∀ id, ∃ a o, ∀ d ∈ (es.search (.version v)).run es, d.id = id →
      (∀ a', AsOf (s id).committed v a' ↔ a' = a) ∧ a ≠ [] ∧ (s id).pending = none ∧
      OptionsAsOf (effectiveOptions (s id).committed (committedOptionsOf db m)) v o ∧
      (Value.dict a).wf = true ∧ FieldNames (.dict a) ∧
      ∃ q, parse E o a = .ok q ∧ d.dataTypes = q.dataTypes ∧ d.parsedTypes = q.parsedTypes := by
    intro id
    by_cases hex : ∃ d ∈ (es.search (.version v)).run es, d.id = id
    · obtain ⟨d, hd, hid⟩ := hex
      obtain ⟨hp, a, o, ha, hne, ho, hf⟩ := hl.found_exists hE hS hm h2 h3 hd hid
      obtain ⟨d', p, q, a0, o0, q0, g1, g2, g3, g4, g5, _, _, _, _, _, g6, g7⟩ := hl.found_doc hE hS hm h2 h3 ha hne hp ho
      rw [hf] at g1
      cases g1
      have hnd : ((s id).committed.map Prod.fst).Nodup := by
        rw [← (hl.hist id).versions]
        exact (hm.desc id).imp (fun h => Int.ne_of_gt h)
      refine ⟨a, o, fun d' hd' hid' => ⟨fun a' => ⟨fun h => h.unique hnd ha, fun h => by rw [h]; exact ha⟩, hne, hp, ho, g3, g4, q, g5, ?_⟩⟩
      have : d' ∈ foundFor es (.version v) id := mem_found_iff.2 ⟨hd', hid'⟩
      rw [hf] at this
      rw [List.mem_singleton.1 this]
      simp only [Doc.dataTypes, Doc.parsedTypes, g2]
      exact ⟨g6, g7⟩
    · refine ⟨[], ⟨[], [], [], [], 0, []⟩, fun d hd hid => absurd ⟨d, hd, hid⟩ hex⟩
  choose src opts h using key
  exact ⟨src, opts, fun d hd => h d.id d hd rfl⟩

/-- The fields of the data of the records that a search finds. -/
theorem LifeInv.data_fields (v : Int) (f : Doc (Option ParsedData) → Bool) {ids : List PyStr} (hids : ids.Nodup)
    (hall : ∀ id, (s id).committed ≠ [] → id ∈ ids)
    (hnames : ∀ id a, AsOf (s id).committed v a → NestedNames '#' (.dict a)) :
    ∃ fs, getDataFields ((((es.search (.version v)).run es).filter f).map Doc.dataTypes) = some (.ok fs) ∧
      ListsFields DType.name ids (fun id p t => id ∈ foundIds (((es.search (.version v)).run es).filter f) ∧
        ∃ a, AsOf (s id).committed v a ∧ DataTypeAt a p t) (fs.map DataField.toFieldCounts) ∧ LinksFields fs := by
  obtain ⟨src, opts, hs⟩ := hl.found_types hE hS hm h2 h3 v
  generalize hD : ((es.search (.version v)).run es).filter f = D
  have hs : ∀ d ∈ D, _ := fun d hd => hs d (List.mem_filter.1 (by rw [← hD] at hd; exact hd)).1
  have hnd : (D.map (fun d => d.id)).Nodup := by
    rw [← hD]; exact found_nodup (hl.found_once hE hS hm h2 h3 v) f
  obtain ⟨r, k1, k2, k3⟩ := fields_ok dtype_ofName (by intro t; cases t <;> decide) D Doc.dataTypes (fun d => DataTypeAt (src d.id))
    (fun d hd => by
      obtain ⟨a1, a2, a3, a4, a5, a6, q, a7, a8, _⟩ := hs d hd
      rw [a8]
      exact summarises_data a5 a6 (hnames d.id _ ((a1 _).2 rfl)) a7)
    (by rintro d hd p s ⟨v, _, rfl⟩; exact ⟨v.dtype, typeSymbol_eq v⟩)
  refine ⟨(sortFields (r.map Prod.snd)).map (linkField (r.map Prod.snd)), ?_, ?_, ?_⟩
  · unfold getDataFields
    rw [iterTerms_eq _ (by decide), Option.map_some, k1]
  · rw [List.map_map]
    have : (DataField.toFieldCounts ∘ linkField (r.map Prod.snd)) = id := rfl
    rw [this, List.map_id]
    refine k3.transfer (key := fun d => d.id) hnd hids (fun d hd => hall _ ?_) (fun d hd p t => ?_) (fun i p t h => h.1)
    · obtain ⟨w, hw, _⟩ := ((hs d hd).1 _).2 rfl
      exact List.ne_nil_of_mem hw
    · obtain ⟨a1, _⟩ := hs d hd
      constructor
      · intro h
        exact ⟨List.mem_map_of_mem hd, _, (a1 _).2 rfl, h⟩
      · rintro ⟨_, a, ha, h⟩
        rw [(a1 a).1 ha] at h
        exact h
  · exact links_ok k3 (fun d hd => (hs d hd).2.2.2.2.1) (fun d hd => (hs d hd).2.2.2.2.2.1)

/-- The types that the data of the records that a search finds is indexed as. -/
theorem LifeInv.parsed_fields (v : Int) (f : Doc (Option ParsedData) → Bool) {ids : List PyStr} (hids : ids.Nodup)
    (hall : ∀ id, (s id).committed ≠ [] → id ∈ ids) (hH : ∀ x ∈ committedOptionsOf db m, E.HintsOk x.2)
    (hnames : ∀ id a, AsOf (s id).committed v a → NestedNames '_' (.dict a)) :
    ∃ fs, getParsedFields ((((es.search (.version v)).run es).filter f).map Doc.parsedTypes) = some (.ok fs) ∧
      ListsFields PType.name ids (fun id p t => id ∈ foundIds (((es.search (.version v)).run es).filter f) ∧
        ∃ a o, AsOf (s id).committed v a ∧ OptionsAsOf (effectiveOptions (s id).committed (committedOptionsOf db m)) v o ∧
          ParsedTypeAt E o a p t) fs := by
  obtain ⟨src, opts, hs⟩ := hl.found_types hE hS hm h2 h3 v
  generalize hD : ((es.search (.version v)).run es).filter f = D
  have hs : ∀ d ∈ D, _ := fun d hd => hs d (List.mem_filter.1 (by rw [← hD] at hd; exact hd)).1
  have hnd : (D.map (fun d => d.id)).Nodup := by
    rw [← hD]; exact found_nodup (hl.found_once hE hS hm h2 h3 v) f
  obtain ⟨r, k1, k2, k3⟩ := fields_ok ptype_ofName (by intro t; cases t <;> decide) D Doc.parsedTypes
    (fun d => ParsedTypeAt E (opts d.id) (src d.id))
    (fun d hd => by
      obtain ⟨a1, a2, a3, a4, a5, a6, q, a7, _, a8⟩ := hs d hd
      rw [a8]
      refine summarises_parsed ?_ a5 a6 (hnames d.id _ ((a1 _).2 rfl)) a7
      rcases a4 with ⟨w, hw, _⟩ | ⟨_, w, hw, _⟩ <;> exact hH _ (List.mem_filter.1 hw).1)
    (by rintro d hd p s ⟨_, ho⟩; exact indexedAs_types ho)
  refine ⟨sortFields (r.map Prod.snd), ?_, ?_⟩
  · unfold getParsedFields
    rw [iterTerms_eq _ (by decide), Option.map_some, k1]
  · refine k3.transfer (key := fun d => d.id) hnd hids (fun d hd => hall _ ?_) (fun d hd p t => ?_) (fun i p t h => h.1)
    · obtain ⟨w, hw, _⟩ := ((hs d hd).1 _).2 rfl
      exact List.ne_nil_of_mem hw
    · obtain ⟨a1, _, _, a4, _⟩ := hs d hd
      constructor
      · intro h
        exact ⟨List.mem_map_of_mem hd, _, _, (a1 _).2 rfl, a4, h⟩
      · rintro ⟨_, a, o, ha, ho, h⟩
        rw [(a1 a).1 ha, ho.unique (hm.options.nodup.sublist (List.filter_sublist.map _)) a4] at h
        exact h

end

end Splitgill
