import Verif.Proof.Zeros
/-!
# Lemmas: searches with both zeros
-/

namespace Splitgill
open Splitgill.Props

section
variable {E : ParseEnv} (hE : E.IgnoresOrder) (hS : E.ScalarHints) {db : PyStr} {m : Mongo} {s : Store}
  {hi : Option Int} {U : Unicode} {rs : List Record} {hn : NoPunsAmong U rs}
  (hl : LifeInv (fun id => (strictClass (placesOf U rs hn id)).named) db m s hi) (hm : DbOk db m) {es : ES (Option ParsedData)}
  (h2 : LatestOk es) (h3 : IndexesRecords (realParser E) db m ((m.data db).filter (fun r => r.version.isSome)) es)
  (hz : ∀ id x, x ∈ (s id).committed → ∀ o, NoNegZeros E o x.2)
include hE hS hl hm h2 h3 hz

theorem LifeInv.finds_agree {q : EsQuery} {field : PyStr} {t : PType} (hon : q.OnField field t) (hq : q.NoNegZero) (Q : QueryEnv) {v : Int}
    {d : Doc (Option ParsedData)} (hd : d ∈ (es.search (.version v)).run es) : q.findsSigned Q d = q.finds Q d := by
  obtain ⟨hp, a, o, ha, hne, ho, hf⟩ := hl.found_exists hE hS hm h2 h3 hd rfl
  have hid : d.id ∈ (m.data db).map MongoRecord.id := by
    refine mem_ids_of_hist (fun hnil => ?_)
    obtain ⟨y, ⟨w, hw, _⟩, _⟩ := (hl.hist d.id).asOf ha
    rw [hnil] at hw; cases hw
  obtain ⟨r, hr, hrid⟩ := List.mem_map.1 hid
  have hh := hl.hist r.id
  rw [← hrid] at ha hp ho hf
  obtain ⟨b, hb, hba⟩ := hh.asOf ha
  have hr' : r ∈ (m.data db).filter (fun r => r.version.isSome) := List.mem_filter.2 ⟨hr, (hl.pending_iff hr).1 hp⟩
  have hdata : ∀ x ∈ histOf (m.data db) r.id, (Value.dict x.2).wf = true ∧ FieldNames (.dict x.2) :=
    fun x hx => ⟨(hh.left_mem hx).1.1, (hh.left_mem hx).2⟩
  rw [← effectiveOptions_congr hh.versions] at ho
  obtain ⟨d', p, q1, a0, o0, q0, g1, g2, g3, ⟨u, hu⟩, g4, g5, _⟩ := found_parse hE hS hm List.filter_sublist h2 h3 hr' hdata hb
    (fun e => hne (hba.nil_iff.1 e)) ho
  rw [hf] at g1
  cases g1
  simp only [EsQuery.findsSigned, EsQuery.finds, g2]
  refine EsQuery.agree hq hon (fun hmem => ?_)
  obtain ⟨s', k1, k2⟩ := esValues_sim strict_none g5 hmem
  rw [← strictScalarEq_eq k2] at k1
  obtain ⟨pa, x, k3, k4, k5⟩ := negZero_from (hdata _ hu).1 (hdata _ hu).2 g4 field k1
  obtain ⟨c, hc, hac⟩ := hh.mem hu
  have hse : SE (.dict a0) (.dict c) := hac.vr
  obtain ⟨y, k6, k7⟩ := VR_getAt k3 hse
  have hxy : strictScalarEq x y = true := by
    have := k7.2.2
    cases x <;> first | (cases k4; done) | (cases y <;> exact this)
  rw [← strictScalarEq_eq hxy] at k6
  exact hz r.id _ hc o0 pa x k6 k5

theorem LifeInv.search_signed {q : EsQuery} {field : PyStr} {t : PType} (hon : q.OnField field t) (hq : q.NoNegZero) (Q : QueryEnv) (v : Int) :
    es.searchSigned Q (.version v) q = es.searchFor Q (.version v) q :=
  List.filter_congr fun _ hd => hl.finds_agree hE hS hm h2 h3 hz hon hq Q hd

end

theorem Asked.query_noNegZero (Q : QueryEnv) (field : PyStr) (k : Asked) {q : EsQuery} (hq : k.query Q field = .ok q) : q.NoNegZero := by
  have hb : ∀ {β : Type} (b : Bounds β) (g : β → Arg), (∀ a, (g a).toValue Q ≠ .float .negZero) → ∀ q, (rangeQuery Q field (b.map g) none).map EsQuery.range = .ok q →
      q.NoNegZero := by
    intro β b g hg q hq
    unfold rangeQuery at hq
    split at hq
    · cases hq
    · split at hq
      · cases hq
      · cases hq
        show ¬ Bounds.Has _ _
        simp only [Bounds.Has, Bounds.map, Option.map_map, Option.map_eq_some_iff, Function.comp]
        rintro (⟨a, _, e⟩ | ⟨a, _, e⟩ | ⟨a, _, e⟩ | ⟨a, _, e⟩) <;> exact hg a e
  cases k with
  | string s => cases hq; exact fun h => nomatch h
  | number n => cases n <;> (cases hq; exact fun h => nomatch h)
  | boolean b => cases hq; exact fun h => nomatch h
  | moment m => cases m <;> (cases hq; exact fun h => nomatch h)
  | strings b => exact hb b _ (fun a h => by cases h) q hq
  | numbers b => exact hb b _ (fun a h => by cases a <;> cases h) q hq
  | booleans b => exact hb b _ (fun a h => by cases h) q hq
  | moments b => exact hb b _ (fun a h => by cases a <;> cases h) q hq

end Splitgill
