import Verif.Proof.EndToEnd2
import Verif.Props.Search
import Verif.Props.ParseOrder
import Verif.Props.Exact
/-!
# Lemmas: what searches find of a database whose histories are known
-/

namespace Splitgill
open Splitgill.Props

/-- What is found for a record is `a`, as far as it is not lost in parsing (C47), up to equality or, if `strict`, with the same types. -/
def Finds (es : ES (Option ParsedData)) (strict : Prop) (v : Int) (id : PyStr) (a : Dict) : Prop :=
  ∃ d p, foundFor es (.version v) id = [d] ∧ d.parsed = some p ∧
    simEq (.dict (rebuildData p.parsed)) (.dict (remainsDict a)) = true ∧
    (strict → strictEq (.dict (rebuildData p.parsed)) (.dict (remainsDict a)) = true)

theorem LifeInv.finds_plain {E : ParseEnv} (hE : E.IgnoresOrder) (hS : E.ScalarHints) {db : PyStr} {m : Mongo} {s : Store}
    {hi : Option Int} (hl : LifeInv (fun _ => plainClass.named) db m s hi) (hm : DbOk db m) {es : ES (Option ParsedData)}
    (h2 : LatestOk es) (h3 : IndexesRecords (realParser E) db m ((m.data db).filter (fun r => r.version.isSome)) es)
    {v : Int} {id : PyStr} {a : Dict} (ha : AsOf (s id).committed v a) (hne : a ≠ []) (hp : (s id).pending = none) :
    Finds es False v id a := by
  obtain ⟨d, p, b, g1, g2, g3, g4, _⟩ := hl.first_sync (K := fun _ => plainClass) hE hS hm h2 h3 ha hne hp
  have g5 := VRsim_trans g4 (remainsDict_congr knowsEmpty_sim rfl g3.vr)
  exact ⟨d, p, g1, g2, g5.2.2, fun h => h.elim⟩

theorem LifeInv.finds_strict {E : ParseEnv} (hE : E.IgnoresOrder) (hS : E.ScalarHints) {db : PyStr} {m : Mongo} {s : Store}
    {hi : Option Int} {U : Unicode} {rs : List Record} {hn : NoPunsAmong U rs}
    (hl : LifeInv (fun id => (strictClass (placesOf U rs hn id)).named) db m s hi) (hm : DbOk db m) {es : ES (Option ParsedData)}
    (h2 : LatestOk es) (h3 : IndexesRecords (realParser E) db m ((m.data db).filter (fun r => r.version.isSome)) es)
    {v : Int} {id : PyStr} {a : Dict} (ha : AsOf (s id).committed v a) (hne : a ≠ []) (hp : (s id).pending = none) (strict : Prop) :
    Finds es strict v id a := by
  obtain ⟨d, p, b, g1, g2, g3, _, g4⟩ := hl.first_sync (K := fun id => strictClass (placesOf U rs hn id)) hE hS hm h2 h3 ha hne hp
  have g5 := SE.trans (g4 (fun x y hx hy => hx.2.noPun hy.2)) (remainsDict_congr knowsEmpty_strict rfl g3.vr)
  exact ⟨d, p, g1, g2, simEq_of_strictEq g5.2.2, fun _ => g5.2.2⟩

theorem LifeInv.finds_nothing {K : PyStr → DataClass} {P : Type} {X : Parser P} {db : PyStr} {m : Mongo} {s : Store} {hi : Option Int}
    (hl : LifeInv K db m s hi) (hm : DbOk db m) {es : ES P} (h2 : LatestOk es)
    (h3 : IndexesRecords X db m ((m.data db).filter (fun r => r.version.isSome)) es) {v : Int} {id : PyStr}
    (hna : ¬ Alive (s id).committed v ∨ (s id).pending ≠ none) : foundFor es (.version v) id = [] := by
  obtain ⟨_, k2, k3⟩ := C36_search_partial X db _ _ es hm List.filter_sublist h2 h3 v
  by_cases hid : ∃ r ∈ (m.data db).filter (fun r => r.version.isSome), id = r.id
  · obtain ⟨r, hr, rfl⟩ := hid
    refine k2 r hr (fun hal => hna.elim (fun hna => hna ((hl.hist r.id).alive hal)) (fun hne => hne ?_))
    exact (hl.pending_iff (List.mem_filter.1 hr).1).2 (List.mem_filter.1 hr).2
  · unfold foundFor
    rw [List.filter_eq_nil_iff]
    intro d hd
    obtain ⟨r, hr, e⟩ := k3 d hd
    simp only [decide_eq_true_eq]
    rintro rfl
    exact hid ⟨r, hr, e⟩

theorem LifeInv.noPending {K : PyStr → DataClass} {db : PyStr} {m : Mongo} {s : Store} {hi : Option Int}
    (hl : LifeInv K db m s hi) (hp : NoPending db m) (id : PyStr) : (s id).pending = none := by
  have hrep := hl.rep.rep id
  cases hf : findRecord id (m.data db) with
  | none => rw [hf] at hrep; exact (Rep.none_iff.1 hrep).2
  | some r =>
    have hr : r ∈ m.data db := List.mem_of_find?_eq_some hf
    have := findRecord_id hf
    subst this
    exact (hl.pending_iff hr).2 (Option.isSome_iff_ne_none.2 (hp r hr))

theorem filter_noPending {db : PyStr} {m : Mongo} (hp : NoPending db m) : (m.data db).filter (fun r => r.version.isSome) = m.data db :=
  List.filter_eq_self.2 (fun r hr => Option.isSome_iff_ne_none.2 (hp r hr))

/-- Calls all of whose data has no puns. -/
theorem fits_named_strict {U : Unicode} (hU : U.Sane) {rs : List Record} (hn : NoPunsAmong U rs) {l : List Record} (hl : ∀ r ∈ l, r ∈ rs) :
    Fits (fun id => (strictClass (placesOf U rs hn id)).named) U l :=
  (fits_strict hn hl).named (fun r => fieldNames_of_clean (C16_names_clean U hU r))

theorem fits_named_plain {U : Unicode} (hU : U.Sane) (l : List Record) : Fits (fun _ => plainClass.named) U l :=
  (fits_plain U l).named (fun r => fieldNames_of_clean (C16_names_clean U hU r))

end Splitgill
