import Verif.Proof.Filter2
import Verif.Proof.FieldProps
import Verif.Proof.FieldProps2
import Verif.Spec.FieldCalls
/-!
# The data fields and the parsed fields of what is found agree
-/

namespace Splitgill
open Splitgill.Props

section
variable {E : ParseEnv} (hE : E.IgnoresOrder) (hS : E.ScalarHints) {db : PyStr} {m : Mongo} {s : Store}
  {hi : Option Int} {U : Unicode} {rs : List Record} {hn : NoPunsAmong U rs}
  (hl : LifeInv (fun id => (strictClass (placesOf U rs hn id)).named) db m s hi) (hm : DbOk db m) {es : ES (Option ParsedData)}
  (h2 : LatestOk es) (h3 : IndexesRecords (realParser E) db m ((m.data db).filter (fun r => r.version.isSome)) es)
include hE hS hl hm h2 h3

theorem LifeInv.fields_agree_found (Q : QueryEnv) (v : Int) (f : Doc (Option ParsedData) → Bool) (hH : ∀ x ∈ committedOptionsOf db m, E.HintsOk x.2)
    (hnames : ∀ id a, AsOf (s id).committed v a → NestedNames '#' (.dict a) ∧ NestedNames '_' (.dict a)) :
    ∃ fs gs, getDataFields ((((es.search (.version v)).run es).filter f).map Doc.dataTypes) = some (.ok fs) ∧
      getParsedFields ((((es.search (.version v)).run es).filter f).map Doc.parsedTypes) = some (.ok gs) ∧
      FieldsAgree fs gs ∧ ParentsContain fs ∧ FoundFieldQueries Q (((es.search (.version v)).run es).filter f) gs ∧
      ∀ data : List Dict, (∀ a, a ∈ data ↔ ∃ id ∈ foundIds (((es.search (.version v)).run es).filter f), AsOf (s id).committed v a) → FieldKinds data fs := by
  classical
  obtain ⟨src, opts, hs⟩ := hl.found_types hE hS hm h2 h3 v
  have hex : ∀ d ∈ (es.search (.version v)).run es, ∀ field t, t ≠ PType.unparsed → ((EsQuery.exists_ (parsedPath field t)).finds Q d = true ↔
      ∃ p, ParsedTypeAt E (opts d.id) (src d.id) p t.name ∧ pathText p = field) := by
    intro d hd field t ht
    obtain ⟨a1, a2, a3, a4, a5, a6, -⟩ := hs d hd
    obtain ⟨d', p, q1, a0, o0, q0, g1, g2, g3, g3', g4, g5, g6, g7, g8, g9, _⟩ := hl.found_doc hE hS hm h2 h3 ((a1 _).2 rfl) a2 a3 a4
    have hmem : d ∈ foundFor es (.version v) d.id := mem_found_iff.2 ⟨hd, rfl⟩
    rw [g1] at hmem
    have hp : d.parsed = some p := by rw [List.mem_singleton.1 hmem]; exact g2
    simp only [EsQuery.finds, hp, EsQuery.matches]
    rw [exists_sim g9, exists_typed hS g3 g3' g4 field ht]
  generalize hD : ((es.search (.version v)).run es).filter f = D
  have hsub : ∀ d ∈ D, d ∈ (es.search (.version v)).run es := fun d hd => (List.mem_filter.1 (by rw [← hD] at hd; exact hd)).1
  have hs : ∀ d ∈ D, _ := fun d hd => hs d (hsub d hd)
  obtain ⟨r, k1, k2, k3⟩ := fields_ok dtype_ofName (by intro t; cases t <;> decide) D Doc.dataTypes (fun d => DataTypeAt (src d.id))
    (fun d hd => by
      obtain ⟨a1, a2, a3, a4, a5, a6, q, a7, a8, _⟩ := hs d hd
      rw [a8]
      exact summarises_data a5 a6 (hnames d.id _ ((a1 _).2 rfl)).1 a7)
    (by rintro d hd p s ⟨v, _, rfl⟩; exact ⟨v.dtype, typeSymbol_eq v⟩)
  obtain ⟨r', j1, j2, j3⟩ := fields_ok ptype_ofName (by intro t; cases t <;> decide) D Doc.parsedTypes
    (fun d => ParsedTypeAt E (opts d.id) (src d.id))
    (fun d hd => by
      obtain ⟨a1, a2, a3, a4, a5, a6, q, a7, _, a8⟩ := hs d hd
      rw [a8]
      refine summarises_parsed ?_ a5 a6 (hnames d.id _ ((a1 _).2 rfl)).2 a7
      rcases a4 with ⟨w, hw, _⟩ | ⟨_, w, hw, _⟩ <;> exact hH _ (List.mem_filter.1 hw).1)
    (by rintro d hd p s ⟨_, ho⟩; exact indexedAs_types ho)
  have hw : ∀ d ∈ D, (Value.dict (src d.id)).wf = true := fun d hd => (hs d hd).2.2.2.2.1
  have hf : ∀ d ∈ D, FieldNames (.dict (src d.id)) := fun d hd => (hs d hd).2.2.2.2.2.1
  have k4 : ListsFields DType.name D (fun d : Doc (Option ParsedData) => DataTypeAt (src d.id))
      (((sortFields (r.map Prod.snd)).map (linkField (r.map Prod.snd))).map DataField.toFieldCounts) := by
    rw [List.map_map]
    have : (DataField.toFieldCounts ∘ linkField (r.map Prod.snd)) = id := rfl
    rw [this, List.map_id]
    exact k3
  refine ⟨(sortFields (r.map Prod.snd)).map (linkField (r.map Prod.snd)), sortFields (r'.map Prod.snd), ?_, ?_,
    fields_agree (src := fun d : Doc (Option ParsedData) => src d.id) (opts := fun d : Doc (Option ParsedData) => opts d.id) hw hf k4 j3,
    parents_contain (src := fun d : Doc (Option ParsedData) => src d.id) hw hf k4 (links_ok k3 hw hf), ?_, ?_⟩
  · unfold getDataFields
    rw [iterTerms_eq _ (by decide), Option.map_some, k1]
  · unfold getParsedFields
    rw [iterTerms_eq _ (by decide), Option.map_some, j1]
  · intro field t ht
    constructor
    · rintro g hgm rfl
      rw [j3.types g hgm t]
      unfold howMany
      congr 1
      refine List.filter_congr (fun d hd => ?_)
      rw [Bool.eq_iff_iff, hex d (hsub d hd) _ t ht, decide_eq_true_iff]
    · intro hno
      rw [List.filter_eq_nil_iff]
      intro d hd hx
      obtain ⟨p, e1, e2⟩ := (hex d (hsub d hd) _ t ht).1 hx
      exact hno ((j3.paths field).2 ⟨d, hd, p, _, e1, e2⟩)
  · intro data hdata
    have hk := field_kinds (src := fun d : Doc (Option ParsedData) => src d.id) k4
    have e : ∀ a, a ∈ data ↔ a ∈ D.map (fun d => src d.id) := fun a => by
      rw [hdata]
      constructor
      · rintro ⟨id, hid, ha⟩
        obtain ⟨d, hd, rfl⟩ := List.mem_map.1 hid
        rw [((hs d hd).1 a).1 ha]
        exact List.mem_map.2 ⟨d, hd, rfl⟩
      · intro ha
        obtain ⟨d, hd, rfl⟩ := List.mem_map.1 ha
        exact ⟨d.id, List.mem_map_of_mem hd, ((hs d hd).1 _).2 rfl⟩
    intro g hg
    have := hk g hg
    simp only [e]
    exact this

end

end Splitgill
