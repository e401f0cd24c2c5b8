import Verif.Proof.Versions
import Verif.Props.OptHist
import Verif.Props.Filter
import Verif.Spec.Stable
/-!
# Lemmas for C89: what later calls do not change
-/

namespace Splitgill
open Splitgill.Props

/-- `l'` holds what `l` holds and more, with versions in `B`. -/
structure AddsIn {α : Type} (B : Int → Prop) (l l' : List (Int × α)) : Prop where
  sub : ∀ x ∈ l, x ∈ l'
  new : ∀ x ∈ l', x ∈ l ∨ B x.1

theorem AddsIn.refl {α : Type} {B : Int → Prop} (l : List (Int × α)) : AddsIn B l l := ⟨fun _ h => h, fun _ h => .inl h⟩

theorem AddsIn.trans {α : Type} {B : Int → Prop} {l l' l'' : List (Int × α)} (h : AddsIn B l l') (h' : AddsIn B l' l'') : AddsIn B l l'' :=
  ⟨fun x hx => h'.sub x (h.sub x hx), fun x hx => (h'.new x hx).elim (h.new x) .inr⟩

theorem AddsIn.mono {α : Type} {B B' : Int → Prop} {l l' : List (Int × α)} (h : AddsIn B l l') (hb : ∀ t, B t → B' t) : AddsIn B' l l' :=
  ⟨h.sub, fun x hx => (h.new x hx).imp_right (hb _)⟩

theorem AddsIn.asOf {α : Type} {B : Int → Prop} {l l' : List (Int × α)} (h : AddsIn B l l') {v : Int} (hb : ∀ t, B t → v < t) {x : α} :
    AsOf l v x ↔ AsOf l' v x := by
  constructor
  · rintro ⟨w, hw, hv, hmax⟩
    refine ⟨w, h.sub _ hw, hv, fun w' y hy hy' => ?_⟩
    rcases h.new _ hy with hy | hy
    · exact hmax w' y hy hy'
    · have := hb _ hy; dsimp only at this; omega
  · rintro ⟨w, hw, hv, hmax⟩
    refine ⟨w, ?_, hv, fun w' y hy hy' => hmax w' y (h.sub _ hy) hy'⟩
    rcases h.new _ hw with hw | hw
    · exact hw
    · have := hb _ hw; dsimp only at this; omega

theorem AddsIn.optionsAsOf {B : Int → Prop} {l l' : List (Int × ParsingOptions)} (h : AddsIn B l l') {v : Int} (hb : ∀ t, B t → v < t)
    (hne : l ≠ []) (hold : ∀ x ∈ l, ∀ t, B t → x.1 < t) {o : ParsingOptions} : OptionsAsOf l v o ↔ OptionsAsOf l' v o := by
  unfold OptionsAsOf
  rw [h.asOf hb]
  refine or_congr_right ?_
  constructor
  · rintro ⟨h1, w, hw, hmin⟩
    refine ⟨fun w' y hy => ?_, w, h.sub _ hw, fun w' y hy => ?_⟩
    · rcases h.new _ hy with hy | hy
      · exact h1 w' y hy
      · exact hb _ hy
    · rcases h.new _ hy with hy | hy
      · exact hmin w' y hy
      · have := hold _ hw _ hy; dsimp only at this; omega
  · rintro ⟨h1, w, hw, hmin⟩
    refine ⟨fun w' y hy => h1 w' y (h.sub _ hy), w, ?_, fun w' y hy => hmin w' y (h.sub _ hy)⟩
    rcases h.new _ hw with hw | hw
    · exact hw
    · obtain ⟨x, l0, rfl⟩ := List.exists_cons_of_ne_nil hne
      have h1 := hold x (by simp) _ hw
      have h2 := hmin x.1 x.2 (h.sub _ (by simp))
      dsimp only at h1; omega

theorem AddsIn.effective {B : Int → Prop} {h h' : List (Int × Dict)} {l l' : List (Int × ParsingOptions)} (hh : AddsIn B h h')
    (hl : AddsIn B l l') (hold : ∀ x ∈ l, ∀ t, B t → x.1 < t) : AddsIn B (effectiveOptions h l) (effectiveOptions h' l') := by
  unfold effectiveOptions
  constructor
  · intro x hx
    obtain ⟨hx, hc⟩ := List.mem_filter.1 hx
    refine List.mem_filter.2 ⟨hl.sub x hx, ?_⟩
    simp only [Bool.or_eq_true, List.any_eq_true, List.all_eq_true, decide_eq_true_eq] at hc ⊢
    rcases hc with ⟨y, hy, hc⟩ | hc
    · exact .inl ⟨y, hh.sub y hy, hc⟩
    · refine .inr (fun y hy => ?_)
      rcases hl.new y hy with hy | hy
      · exact hc y hy
      · have := hold x hx _ hy; omega
  · intro x hx
    obtain ⟨hx, hc⟩ := List.mem_filter.1 hx
    rcases hl.new x hx with hx' | hx'
    · refine .inl (List.mem_filter.2 ⟨hx', ?_⟩)
      simp only [Bool.or_eq_true, List.any_eq_true, List.all_eq_true, decide_eq_true_eq] at hc ⊢
      rcases hc with ⟨y, hy, hc⟩ | hc
      · rcases hh.new y hy with hy | hy
        · exact .inl ⟨y, hy, hc⟩
        · have := hold x hx' _ hy; omega
      · exact .inr (fun y hy => hc y (hl.sub y hy))
    · exact .inr hx'

/-! ## What calls add -/

theorem ApiCall.effect_adds (U : Unicode) (ret : Option Int) (s : Store) (c : ApiCall) (id : PyStr) :
    AddsIn (fun t => ret = some t) (s id).committed (c.effect U ret s id).committed := by
  have hnone : (c.effect U none s id).committed = (s id).committed := by
    unfold ApiCall.effect
    cases c with
    | ingest mf l dc ck => exact Store.committed_ingest mf l s id
    | _ => rfl
  cases ret with
  | none => rw [hnone]; exact AddsIn.refl _
  | some w =>
    have e : c.effect U (some w) s id = (c.effect U none s id).commit w := rfl
    rw [e]
    generalize c.effect U none s id = h at hnone
    unfold Hist.commit
    split
    · rw [hnone]; exact AddsIn.refl _
    · dsimp only
      rw [hnone]
      refine ⟨fun x hx => List.mem_cons_of_mem _ hx, fun x hx => ?_⟩
      rcases List.mem_cons.1 hx with rfl | hx
      · exact .inr rfl
      · exact .inl hx

theorem ingestedFrom_adds {U : Unicode} {db : PyStr} : ∀ (calls : List ApiCall) (m : Mongo) (s : Store) (id : PyStr),
    AddsIn (fun t => t ∈ calls.filterMap ApiCall.clock?) (s id).committed (ingestedFrom U db m s calls id).committed
  | [], _, _, _ => AddsIn.refl _
  | c :: calls, m, s, id => by
    rw [ingestedFrom]
    rcases hr : c.run U db m with ⟨r, m'⟩
    have sub : ∀ t, t ∈ calls.filterMap ApiCall.clock? → t ∈ (c :: calls).filterMap ApiCall.clock? := by
      intro t ht
      rw [List.filterMap_cons]
      split
      · exact ht
      · exact List.mem_cons_of_mem _ ht
    cases r with
    | error e => exact (ingestedFrom_adds calls m' s id).mono sub
    | ok ret =>
      refine ((c.effect_adds U ret s id).mono ?_).trans ((ingestedFrom_adds calls m' _ id).mono sub)
      rintro t rfl
      have := C71_version U db m c t (by rw [hr])
      rw [List.filterMap_cons, this]
      exact List.mem_cons_self

theorem ingestedFrom_append {U : Unicode} {db : PyStr} : ∀ (a b : List ApiCall) (m : Mongo) (s : Store),
    ingestedFrom U db m s (a ++ b) = ingestedFrom U db (runCalls U m (a.map (fun c => (db, c)))) (ingestedFrom U db m s a) b
  | [], _, _, _ => rfl
  | c :: a, b, m, s => by
    rw [List.cons_append, ingestedFrom, ingestedFrom]
    rcases hr : c.run U db m with ⟨r, m'⟩
    have e : runCalls U m ((c :: a).map (fun c => (db, c))) = runCalls U m' (a.map (fun c => (db, c))) := by simp [runCalls, hr]
    rw [e]
    cases r <;> exact ingestedFrom_append a b m' _

theorem ingested_adds (U : Unicode) (db : PyStr) (a b : List ApiCall) (id : PyStr) :
    AddsIn (fun t => t ∈ b.filterMap ApiCall.clock?) (ingested U db a id).committed (ingested U db (a ++ b) id).committed := by
  unfold ingested
  rw [ingestedFrom_append]
  exact ingestedFrom_adds b _ _ id

theorem ingested_clock {U : Unicode} {db : PyStr} {calls : List ApiCall} {id : PyStr} {x : Int × Dict}
    (h : x ∈ (ingested U db calls id).committed) : x.1 ∈ calls.filterMap ApiCall.clock? := by
  rcases (ingestedFrom_adds calls Mongo.empty Store.empty id).new x h with h | h
  · cases h
  · exact h

theorem ApiCall.optEffect_adds (ret : Option Int) (h : OptHist) (c : ApiCall) :
    AddsIn (fun t => ret = some t) h.committed (c.optEffect ret h).committed := by
  have hnone : (c.optEffect none h).committed = h.committed := by
    unfold ApiCall.optEffect
    cases c with
    | updateOptions o dc ck => dsimp only [OptHist.update]; split <;> (try split) <;> rfl
    | _ => rfl
  cases ret with
  | none => rw [hnone]; exact AddsIn.refl _
  | some w =>
    have e : c.optEffect (some w) h = (c.optEffect none h).commit w := rfl
    rw [e]
    generalize c.optEffect none h = g at hnone
    have e2 : g.orDefault.committed = g.committed := by
      unfold OptHist.orDefault
      split
      · rename_i e _; rw [e]
      · rfl
    unfold OptHist.commit
    rw [← hnone, ← e2]
    unfold OptHist.give
    split
    · refine ⟨fun x hx => List.mem_append_left _ hx, fun x hx => ?_⟩
      rcases List.mem_append.1 hx with hx | hx
      · exact .inl hx
      · simp only [List.mem_singleton] at hx; subst hx; exact .inr rfl
    · exact AddsIn.refl _

theorem optionsFrom_adds {U : Unicode} {db : PyStr} : ∀ (calls : List ApiCall) (m : Mongo) (h : OptHist),
    AddsIn (fun t => t ∈ calls.filterMap ApiCall.clock?) h.committed (optionsFrom U db m h calls).committed
  | [], _, _ => AddsIn.refl _
  | c :: calls, m, h => by
    rw [optionsFrom]
    rcases hr : c.run U db m with ⟨r, m'⟩
    have sub : ∀ t, t ∈ calls.filterMap ApiCall.clock? → t ∈ (c :: calls).filterMap ApiCall.clock? := by
      intro t ht
      rw [List.filterMap_cons]
      split
      · exact ht
      · exact List.mem_cons_of_mem _ ht
    cases r with
    | error e =>
      exact ((c.optEffect_adds none h).mono (fun t e => nomatch e)).trans ((optionsFrom_adds calls m' _).mono sub)
    | ok ret =>
      refine ((c.optEffect_adds ret h).mono ?_).trans ((optionsFrom_adds calls m' _).mono sub)
      rintro t rfl
      have := C71_version U db m c t (by rw [hr])
      rw [List.filterMap_cons, this]
      exact List.mem_cons_self

theorem optionsFrom_append {U : Unicode} {db : PyStr} : ∀ (a b : List ApiCall) (m : Mongo) (h : OptHist),
    optionsFrom U db m h (a ++ b) = optionsFrom U db (runCalls U m (a.map (fun c => (db, c)))) (optionsFrom U db m h a) b
  | [], _, _, _ => rfl
  | c :: a, b, m, h => by
    rw [List.cons_append, optionsFrom, optionsFrom]
    rcases hr : c.run U db m with ⟨r, m'⟩
    have e : runCalls U m ((c :: a).map (fun c => (db, c))) = runCalls U m' (a.map (fun c => (db, c))) := by simp [runCalls, hr]
    rw [e]
    cases r <;> exact optionsFrom_append a b m' _

theorem optionsGiven_adds (U : Unicode) (db : PyStr) (a b : List ApiCall) :
    AddsIn (fun t => t ∈ b.filterMap ApiCall.clock?) (optionsGiven U db a).committed (optionsGiven U db (a ++ b)).committed := by
  unfold optionsGiven
  rw [optionsFrom_append]
  exact optionsFrom_adds b _ _

theorem optionsGiven_clock {U : Unicode} {db : PyStr} {calls : List ApiCall} {x : Int × ParsingOptions}
    (h : x ∈ (optionsGiven U db calls).committed) : x.1 ∈ calls.filterMap ApiCall.clock? := by
  rcases (optionsFrom_adds calls Mongo.empty OptHist.empty).new x h with h | h
  · cases h
  · exact h

/-! ## What is true as of a version before the calls -/

section
variable {U : Unicode} {db : PyStr} {a b : List ApiCall} (hc : ((a ++ b).filterMap ApiCall.clock?).Pairwise (· < ·))
  (ho : ∀ o ∈ (a ++ b).filterMap ApiCall.options?, OptionsOk o) (hne : (optionsGiven U db a).committed ≠ []) {v : Int} (hv : AllAfter v b)
include hv

theorem asOf_stable (id : PyStr) (d : Dict) : AsOf (ingested U db a id).committed v d ↔ AsOf (ingested U db (a ++ b) id).committed v d :=
  (ingested_adds U db a b id).asOf hv

include hc hne

theorem effective_stable (id : PyStr) (o : ParsingOptions) :
    OptionsAsOf (effectiveOptions (ingested U db a id).committed (optionsGiven U db a).committed) v o ↔
    OptionsAsOf (effectiveOptions (ingested U db (a ++ b) id).committed (optionsGiven U db (a ++ b)).committed) v o := by
  have hold : ∀ x ∈ (optionsGiven U db a).committed, ∀ t, t ∈ b.filterMap ApiCall.clock? → x.1 < t := by
    intro x hx t ht
    rw [List.filterMap_append] at hc
    exact (List.pairwise_append.1 hc).2.2 _ (optionsGiven_clock hx) _ ht
  exact ((ingested_adds U db a b id).effective (optionsGiven_adds U db a b) hold).optionsAsOf hv
    (effectiveOptions_ne_nil _ hne) (fun x hx => hold x (List.mem_filter.1 hx).1)

end

/-! ## Parts of sequences of calls -/

theorem EachPart.left {extra : Int → Mongo → Prop} {U : Unicode} {db : PyStr} : ∀ {parts : List (List ApiCall)} {more : List (List ApiCall)}
    {before : List ApiCall}, EachPart extra U db before (parts ++ more) → EachPart extra U db before parts
  | [], _, _, _ => trivial
  | _ :: _, _, _, h => ⟨h.1, h.2.left⟩

theorem statesOf_left {U : Unicode} {db : PyStr} : ∀ (parts more : List (List ApiCall)) (before : List ApiCall),
    ∀ m ∈ statesOf U db before parts, m ∈ statesOf U db before (parts ++ more)
  | [], [], _, _, h => h
  | [], _ :: _, _, m, h => by
    simp only [statesOf, List.mem_singleton] at h
    subst h
    exact List.mem_cons_self
  | part :: parts, more, before, m, h => by
    rw [List.cons_append, statesOf]
    rw [statesOf] at h
    rcases List.mem_cons.1 h with rfl | h
    · exact List.mem_cons_self
    · exact List.mem_cons_of_mem _ (statesOf_left parts more _ m h)

theorem NoPunsAmong.left {U : Unicode} {a b : List Record} (h : NoPunsAmong U (a ++ b)) : NoPunsAmong U a :=
  fun r hr r' hr' => h r (List.mem_append_left _ hr) r' (List.mem_append_left _ hr')

/-! ## Documents -/

section
variable {E : ParseEnv} (hE : E.IgnoresOrder) (hS : E.ScalarHints) {db : PyStr} {m : Mongo} {s : Store}
  {hi : Option Int} {U : Unicode} {rs : List Record} {hn : NoPunsAmong U rs}
  (hl : LifeInv (fun id => (strictClass (placesOf U rs hn id)).named) db m s hi) (hm : DbOk db m) {es : ES (Option ParsedData)}
  (h2 : LatestOk es) (h3 : IndexesRecords (realParser E) db m ((m.data db).filter (fun r => r.version.isSome)) es)
include hE hS hl hm h2 h3

/-- The data that is rebuilt from what is found. -/
theorem LifeInv.found_data {v : Int} {id : PyStr} {a : Dict} (ha : AsOf (s id).committed v a) (hne : a ≠ [])
    (hp : (s id).pending = none) :
    ∃ d p, foundFor es (.version v) id = [d] ∧ d.parsed = some p ∧ SE (.dict (rebuildData p.parsed)) (.dict (remainsDict a)) := by
  have hid : id ∈ (m.data db).map MongoRecord.id := by
    refine mem_ids_of_hist (fun hnil => ?_)
    obtain ⟨y, ⟨w, hw, _⟩, _⟩ := (hl.hist id).asOf ha
    rw [hnil] at hw; cases hw
  obtain ⟨r, hr, rfl⟩ := List.mem_map.1 hid
  have hh := hl.hist r.id
  obtain ⟨b, hb, hba⟩ := hh.asOf ha
  have hr' : r ∈ (m.data db).filter (fun r => r.version.isSome) := List.mem_filter.2 ⟨hr, (hl.pending_iff hr).1 hp⟩
  obtain ⟨d, p, g1, g2, _, g3⟩ := found_rebuilt hE hS hm List.filter_sublist h2 h3 hr'
    (fun x hx => ⟨(hh.left_mem hx).1.1, (hh.left_mem hx).2⟩) hb (fun e => hne (hba.nil_iff.1 e))
  have g3 := g3 (fun x hx y hy => (hh.left_mem hx).1.2.noPun (hh.left_mem hy).1.2)
  exact ⟨d, p, g1, g2, SE.trans g3 (remainsDict_congr knowsEmpty_strict rfl hba.vr)⟩

end

theorem VRsim_symm {a b : Value} (h : VR simScalarEq a b) : VR simScalarEq b a := ⟨h.2.1, h.1, simEq_symm h.1 h.2.1 h.2.2⟩

/-- Two situations in which the same is true of a record find the same. -/
theorem same_found {E : ParseEnv} (hE : E.IgnoresOrder) (hS : E.ScalarHints) {db : PyStr} {m m' : Mongo} {s s' : Store}
    {hi hi' : Option Int} {U : Unicode} {rs rs' : List Record} {hn : NoPunsAmong U rs} {hn' : NoPunsAmong U rs'}
    (hl : LifeInv (fun id => (strictClass (placesOf U rs hn id)).named) db m s hi)
    (hl' : LifeInv (fun id => (strictClass (placesOf U rs' hn' id)).named) db m' s' hi')
    (hm : DbOk db m) (hm' : DbOk db m') {es es' : ES (Option ParsedData)} (h2 : LatestOk es) (h2' : LatestOk es')
    (h3 : IndexesRecords (realParser E) db m ((m.data db).filter (fun r => r.version.isSome)) es)
    (h3' : IndexesRecords (realParser E) db m' ((m'.data db).filter (fun r => r.version.isSome)) es')
    {v : Int} {id : PyStr} (hp : (s id).pending = none) (hp' : (s' id).pending = none)
    (ha : ∀ d, AsOf (s id).committed v d ↔ AsOf (s' id).committed v d)
    (ho : ∀ o, OptionsAsOf (effectiveOptions (s id).committed (committedOptionsOf db m)) v o ↔
      OptionsAsOf (effectiveOptions (s' id).committed (committedOptionsOf db m')) v o) : SameFound es es' v id := by
  unfold SameFound
  by_cases hal : Alive (s id).committed v
  · obtain ⟨a, haa, hne⟩ := hal
    obtain ⟨o, hoo⟩ := exists_optionsAsOf (effectiveOptions_ne_nil (s id).committed hm.options.nonempty) v
    obtain ⟨d, p, q, _, _, _, e1, e2, _, _, e3, _, _, _, _, e4, e5, e6⟩ := hl.found_doc hE hS hm h2 h3 haa hne hp hoo
    obtain ⟨d', p', q', _, _, _, f1, f2, _, _, f3, _, _, _, _, f4, f5, f6⟩ :=
      hl'.found_doc hE hS hm' h2' h3' ((ha a).1 haa) hne hp' ((ho o).1 hoo)
    obtain ⟨d1, p1, i1, i2, i3⟩ := hl.found_data hE hS hm h2 h3 haa hne hp
    obtain ⟨d1', p1', j1, j2, j3⟩ := hl'.found_data hE hS hm' h2' h3' ((ha a).1 haa) hne hp'
    rw [e1] at i1; cases i1
    rw [f1] at j1; cases j1
    rw [e2] at i2; cases i2
    rw [f2] at j2; cases j2
    rw [e3] at f3; cases f3
    have k1 : d ∈ foundFor es (.version v) id := by rw [e1]; simp
    have k2 : d' ∈ foundFor es' (.version v) id := by rw [f1]; simp
    have k1 := (mem_found_iff.1 k1).2
    have k2 := (mem_found_iff.1 k2).2
    rw [e1, f1]
    exact .cons ⟨k1.trans k2.symm, p, p', e2, f2, (VRsim_trans e4 (VRsim_symm f4)).2.2, (SE.trans i3 j3.symm).2.2, e5.trans f5.symm,
      e6.trans f6.symm⟩ .nil
  · have hal' : ¬ Alive (s' id).committed v := fun ⟨a, h, hne⟩ => hal ⟨a, (ha a).2 h, hne⟩
    rw [hl.finds_nothing hm h2 h3 (.inl hal), hl'.finds_nothing hm' h2' h3' (.inl hal')]
    exact .nil

end Splitgill
