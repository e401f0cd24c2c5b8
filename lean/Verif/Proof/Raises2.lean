import Verif.Proof.Raises
import Verif.Proof.EndToEnd2
import Verif.Proof.Each2
/-!
# When a sync raises, in terms of calls: proofs
-/

namespace Splitgill

variable {E : ParseEnv} {F : Failures} {db : PyStr} {m : Mongo}

/-- A record can be built iff all its data can be parsed. -/
theorem tryBuild_parses (hm : DbOk db m) {r : MongoRecord} (hr : r ∈ m.data db) (hv : r.version.isSome = true) :
    (∃ rvs, tryBuild E F r (committedOptionsOf db m) = .ok rvs ∧ rvs ≠ []) ↔
      Parses E F (histOf (m.data db) r.id) (committedOptionsOf db m) := by
  rw [tryBuild_docs hm hr hv]
  obtain ⟨v, hv⟩ := Option.isSome_iff_exists.1 hv
  obtain ⟨_, d, hd⟩ := hm.head hr hv
  have hne : histOf (m.data db) r.id ≠ [] := by intro he; rw [he] at hd; cases hd
  exact (hm.partitions (failParser E F) hne).parses
    (fun v _ => exists_optionsAsOf (effectiveOptions_ne_nil _ hm.options.nonempty) v)

/-- What the selected records are. -/
theorem syncScope_looks {P : Type} (hm : DbOk db m) (resync : Bool) (es : ES P) (hd : hasData db m = true) :
    (syncScope db resync m es = .ok none ∧ ∀ r, ¬ LooksAt db resync m es r) ∨
    ∃ sel last, syncScope db resync m es = .ok (some (sel, last)) ∧
      ∀ r, r ∈ (m.data db).filter sel ↔ LooksAt db resync m es r := by
  have hc : ∃ c, getCommittedVersion db m = some c := by
    obtain ⟨⟨v, o⟩, hmem⟩ := List.exists_mem_of_ne_nil _ hm.options.nonempty
    obtain ⟨c, h, _⟩ := options_le_committed (db := db) (m := m) (List.mem_map_of_mem (f := Prod.fst) hmem)
    exact ⟨c, h⟩
  obtain ⟨c, hc⟩ := hc
  cases hs : syncScope db resync m es with
  | error e =>
    exfalso
    unfold syncScope at hs
    dsimp only at hs
    split at hs
    · cases hs
    · rw [hc] at hs
      dsimp only at hs
      split at hs
      · cases hs
      · split at hs <;> cases hs
  | ok x =>
    rcases syncScope_spec hd hs with ⟨rfl, h1, e, c', h2, h3, h4⟩ | ⟨sel, rfl, h1, h2, h3⟩
    · refine .inl ⟨rfl, ?_⟩
      rintro r ⟨hr, w, hw, h | h | ⟨t, ht, h⟩⟩
      · rw [h1] at h; cases h
      · rw [h2] at h; cases h
      · rw [h2] at ht; cases ht
        rcases h with h | ⟨u, hu, h⟩
        · obtain ⟨c'', k1, k2⟩ := record_le_committed (db := db) (m := m) hr hw
          rw [h3] at k1; cases k1; omega
        · obtain ⟨c'', k1, k2⟩ := options_le_committed (db := db) (m := m) hu
          rw [h3] at k1; cases k1; omega
    · refine .inr ⟨sel, _, rfl, fun r => ?_⟩
      rw [List.mem_filter]
      unfold LooksAt
      refine and_congr_right (fun hr => ?_)
      by_cases ha : resync = true ∨ es.version = none
      · constructor
        · intro h
          obtain ⟨w, hw⟩ := Option.isSome_iff_exists.1 (h1 r h)
          exact ⟨w, hw, ha.elim .inl (fun h => .inr (.inl h))⟩
        · rintro ⟨w, hw, _⟩
          exact h2 ha r (by rw [hw]; rfl)
      · have hf : resync = false := by cases resync <;> simp_all
        obtain ⟨e, he⟩ := Option.ne_none_iff_exists'.1 (fun h => ha (.inr h))
        rcases h3 e hf he with ⟨rfl, k⟩ | ⟨rfl, k⟩
        · constructor
          · intro h
            obtain ⟨w, hw⟩ := Option.isSome_iff_exists.1 h
            obtain ⟨u, hu, hlt⟩ := List.any_eq_true.1 k
            exact ⟨w, hw, .inr (.inr ⟨e, he, .inr ⟨u, hu, by simpa using hlt⟩⟩)⟩
          · rintro ⟨w, hw, _⟩
            show r.version.isSome = true
            rw [hw]; rfl
        · constructor
          · intro h
            unfold newerThan at h
            cases hw : r.version with
            | none => rw [hw] at h; cases h
            | some w =>
              rw [hw] at h
              exact ⟨w, rfl, .inr (.inr ⟨e, he, .inl (by simpa using h)⟩)⟩
          · rintro ⟨w, hw, h | h | ⟨t, ht, h⟩⟩
            · rw [hf] at h; cases h
            · rw [he] at h; cases h
            · rw [he] at ht; cases ht
              unfold newerThan
              rw [hw]
              rcases h with h | ⟨u, hu, h⟩
              · simpa using h
              · have := List.any_eq_false.1 k u hu
                simp only [decide_eq_true_eq] at this
                omega

theorem trySync_iff (hm : DbOk db m) (maxDocs : Nat) (resync : Bool) (es : ES (Option ParsedData)) :
    (∃ es', trySync E F maxDocs db resync m es = .ok es') ↔
      ∀ r, LooksAt db resync m es r → Parses E F (histOf (m.data db) r.id) (committedOptionsOf db m) := by
  unfold trySync
  cases hd : hasData db m with
  | false =>
    refine ⟨fun _ r ⟨hr, w, hw, _⟩ => ?_, fun _ => ⟨es, rfl⟩⟩
    have := filter_hasData (db := db) (m := m) hd
    have hmem : r ∈ (m.data db).filter (fun r => r.version.isSome) := List.mem_filter.2 ⟨hr, by rw [hw]; rfl⟩
    rw [this] at hmem; cases hmem
  | true =>
    rcases syncScope_looks hm resync es hd with ⟨h1, h2⟩ | ⟨sel, last, h1, h2⟩
    · rw [h1]
      exact ⟨fun _ r hr => absurd hr (h2 r), fun _ => ⟨es, rfl⟩⟩
    · rw [h1]
      simp only [Bool.not_true, Bool.false_eq_true, if_false]
      have key := tryGenerateOps_ok (E := E) (F := F) (maxDocs := maxDocs) (opts := committedOptionsOf db m) (after := last)
        (rs := (m.data db).filter sel) (arc := ES.arcStatus (if resync = true then es.deleteArcs else es))
      have hb : (∀ r ∈ (m.data db).filter sel, ∃ rvs, tryBuild E F r (committedOptionsOf db m) = .ok rvs ∧ rvs ≠ []) ↔
          ∀ r, LooksAt db resync m es r → Parses E F (histOf (m.data db) r.id) (committedOptionsOf db m) := by
        refine ⟨fun h r hr => ?_, fun h r hr => ?_⟩
        · have hr' := hr
          obtain ⟨_, w, hw, _⟩ := hr'
          exact (tryBuild_parses hm hr.1 (by rw [hw]; rfl)).1 (h r ((h2 r).2 hr))
        · have hl := (h2 r).1 hr
          have hl' := hl
          obtain ⟨_, w, hw, _⟩ := hl'
          exact (tryBuild_parses hm hl.1 (by rw [hw]; rfl)).2 (h r hl)
      rw [← hb, ← key]
      constructor
      · rintro ⟨es', h⟩
        split at h
        · cases h
        · rename_i ht; exact ⟨_, ht⟩
      · rintro ⟨x, hx⟩
        rw [hx]
        exact ⟨_, rfl⟩

theorem tryResyncArcs_iff (hm : DbOk db m) (maxDocs : Nat) (es : ES (Option ParsedData)) :
    (∃ es', tryResyncArcs E F maxDocs db m es = .ok es') ↔
      ∀ r ∈ m.data db, r.version ≠ none → Parses E F (histOf (m.data db) r.id) (committedOptionsOf db m) := by
  unfold tryResyncArcs
  have key := tryGenerateOps_ok (E := E) (F := F) (maxDocs := maxDocs) (opts := committedOptionsOf db m) (after := none)
    (rs := (m.data db).filter (fun r => r.version.isSome)) (arc := ES.arcStatus es.deleteArcs)
  have hb : (∀ r ∈ (m.data db).filter (fun r => r.version.isSome), ∃ rvs, tryBuild E F r (committedOptionsOf db m) = .ok rvs ∧ rvs ≠ []) ↔
      ∀ r ∈ m.data db, r.version ≠ none → Parses E F (histOf (m.data db) r.id) (committedOptionsOf db m) := by
    refine ⟨fun h r hr hv => ?_, fun h r hr => ?_⟩
    · have hv' := Option.isSome_iff_ne_none.2 hv
      exact (tryBuild_parses hm hr hv').1 (h r (List.mem_filter.2 ⟨hr, hv'⟩))
    · obtain ⟨h1, h2⟩ := List.mem_filter.1 hr
      exact (tryBuild_parses hm h1 h2).2 (h r h1 (Option.isSome_iff_ne_none.1 h2))
  rw [← hb, ← key]
  dsimp only
  constructor
  · rintro ⟨es', h⟩
    split at h
    · cases h
    · rename_i ht; exact ⟨_, ht⟩
  · rintro ⟨x, hx⟩
    rw [hx]
    exact ⟨_, rfl⟩

/-! ## Nothing raises -/

mutual
theorem failsIn_never (hF : F.Never) (o : ParsingOptions) : ∀ v : Value, failsIn F o v = false
  | .none => by rw [failsIn] <;> simp
  | .bool _ => by rw [failsIn] <;> simp
  | .int _ => by rw [failsIn] <;> simp
  | .str _ => by rw [failsIn] <;> simp
  | .float f => by rw [failsIn, hF.format]
  | .list l => by rw [failsIn, failsList_never hF o l]
  | .dict d => by
    have : hintsFail F o d = false := by unfold hintsFail; rw [List.any_eq_false]; intro h _; rw [hF.hint]; simp
    rw [failsIn, failsItems_never hF o d, this, hF.geojson]
    simp
theorem failsItems_never (hF : F.Never) (o : ParsingOptions) : ∀ d : Dict, failsItems F o d = false
  | [] => by rw [failsItems]
  | (k, v) :: r => by rw [failsItems, failsIn_never hF o v, failsItems_never hF o r]; rfl
theorem failsList_never (hF : F.Never) (o : ParsingOptions) : ∀ l : List Value, failsList F o l = false
  | [] => by rw [failsList]
  | v :: r => by rw [failsList, failsIn_never hF o v, failsList_never hF o r]; rfl
end

theorem tryParse_never (hF : F.Never) (o : ParsingOptions) (d : Dict) : tryParse E F o d = parse E o d := by
  have : hintsFail F o d = false := by unfold hintsFail; rw [List.any_eq_false]; intro h _; rw [hF.hint]; simp
  rw [tryParse, this, failsItems_never hF]
  rfl

theorem life_parses {U : Unicode} {calls : List ApiCall} (ho : Orderly calls) (hF : F.Never) (hS : E.ScalarHints) (id : PyStr)
    (opts : List (Int × ParsingOptions)) : Parses E F (histOf ((afterCalls U db calls).data db) id) opts := by
  have hl := (life (K := fun _ => plainClass) (U := U) (db := db) (fun c _ => fits_plain U c.stream) ho).toLifeInv
  rintro v a o ⟨w, hw, _⟩ _ _
  have := (hl.hist id).left_mem hw
  rw [tryParse_never hF]
  exact parse_total hS (plainClass.wf this)

/-! ## What cannot be parsed stays -/

theorem trunc_parsed {P : Type} {t : Option Int} {D : List (Doc P)} {d : Doc P} (h : d ∈ trunc t D) : ∃ d' ∈ D, d'.parsed = d.parsed := by
  obtain ⟨d', h1, h2⟩ := List.mem_filterMap.1 h
  refine ⟨d', h1, ?_⟩
  unfold truncDoc at h2
  split at h2
  · cases h2
  · split at h2
    · split at h2 <;> cases h2 <;> rfl
    · cases h2; rfl

/-- Data that cannot be parsed at one time cannot be parsed later. -/
theorem LaterFor.fails {t : Int} {m m' : Mongo} {id : PyStr} (h : LaterFor (failParser E F) db id t m m') (hm : DbOk db m) (hm' : DbOk db m')
    {r r' : MongoRecord} (hr : r ∈ m.data db) (hid : r.id = id) (hr' : r' ∈ m'.data db) (hid' : r'.id = id)
    (hne : histOf (m.data db) id ≠ []) (hne' : histOf (m'.data db) id ≠ [])
    (hn : ¬ Parses E F (histOf (m.data db) id) (committedOptionsOf db m)) :
    ¬ Parses E F (histOf (m'.data db) id) (committedOptionsOf db m') := by
  subst hid
  intro hp
  apply hn
  have h1 := (hm.partitions (failParser E F) hne).parses
    (fun v _ => exists_optionsAsOf (effectiveOptions_ne_nil _ hm.options.nonempty) v)
  rw [← hid'] at hp hne'
  have h2 := ((hm'.partitions (failParser E F) hne').parses
    (fun v _ => exists_optionsAsOf (effectiveOptions_ne_nil _ hm'.options.nonempty) v)).2 hp
  refine h1.1 (fun d hd => ?_)
  unfold dbDocs at hd h2
  rw [← h.trunc hm hm'] at hd
  obtain ⟨d', k1, k2⟩ := trunc_parsed hd
  rw [← k2]
  rw [hid'] at h2
  exact h2 d' k1

/-- What cannot be parsed now makes later syncs raise. -/
theorem life_fails (hE : E.IgnoresOrder) (hF : F.IgnoresOrder) {U : Unicode} (hU : U.Sane) (maxDocs : Nat) {a b : List ApiCall}
    (ho : Orderly (a ++ b)) {id : PyStr}
    (hp : NoPunsAmong U (((a ++ b).flatMap ApiCall.stream).filter (fun r => decide (r.id = id))))
    {v : Int} {x : Dict} {o : ParsingOptions} (hx : AsOf (ingested U db a id).committed v x) (hne : x ≠ [])
    (hopt : OptionsAsOf (effectiveOptions (ingested U db a id).committed (committedOptionsOf db (afterCalls U db a))) v o)
    (hfail : ∀ p, tryParse E F o x ≠ .ok p)
    (hkey : (∃ d, (v, d) ∈ (ingested U db a id).committed) ∨ v ∈ akeys (committedOptionsOf db (afterCalls U db a)))
    (hv : ∃ v, IsVersion (afterCalls U db a) db v)
    (hnow : NoPendingOf db id (afterCalls U db (a ++ b))) :
    DbOk db (afterCalls U db (a ++ b)) ∧ ∃ r ∈ (afterCalls U db (a ++ b)).data db, ∃ w, r.version = some w ∧
      (v ≤ w ∨ v ∈ akeys (committedOptionsOf db (afterCalls U db (a ++ b)))) ∧
      ¬ Parses E F (histOf ((afterCalls U db (a ++ b)).data db) r.id) (committedOptionsOf db (afterCalls U db (a ++ b))) := by
  have hX : ∀ x y o, DEq ((classFor id (placesOf U _ hp id) id).named) x y → (failParser E F).parse x o = (failParser E F).parse y o := by
    rw [classFor_self]
    exact fun x y o h => failParser_order hE hF h.vr o
  have hq : ∀ c ∈ a ++ b, Fits (fun i => (classFor id (placesOf U _ hp id) i).named) U c.stream := fun c hc =>
    fits_classFor hU id hp (fun r hr => List.mem_flatMap.2 ⟨c, hc, hr⟩)
  obtain ⟨v0, hv0⟩ := hv
  obtain ⟨t, _, h2, s', hi, h3, h4⟩ := life_evolves hq ho hv0
  have hla := h4.laterFor (X := failParser E F) (id := id) hX h2 h3
  have hma := life_dbOk (U := U) (db := db) ho.left hv0
  have hmab := life_dbOk (U := U) (db := db) ho (hla.isVersion hma).choose_spec
  have hh := h2.hist id
  obtain ⟨y, hy, hyx⟩ := hh.asOf hx
  have hna : histOf ((afterCalls U db a).data db) id ≠ [] := by
    obtain ⟨w, hw, _⟩ := hy
    exact List.ne_nil_of_mem hw
  have hnab : histOf ((afterCalls U db (a ++ b)).data db) id ≠ [] := by
    intro he
    have := hla.hist
    rw [he] at this
    generalize hg : histOf ((afterCalls U db a).data db) id = l at this
    cases this
    exact hna hg
  obtain ⟨r, hr, hid⟩ := List.mem_map.1 (mem_ids_of_hist hna)
  obtain ⟨r', hr', hid'⟩ := List.mem_map.1 (mem_ids_of_hist hnab)
  have hn : ¬ Parses E F (histOf ((afterCalls U db a).data db) id) (committedOptionsOf db (afterCalls U db a)) := by
    intro hpar
    have he : effectiveOptions (histOf ((afterCalls U db a).data db) id) (committedOptionsOf db (afterCalls U db a)) =
        effectiveOptions (ingested U db a id).committed (committedOptionsOf db (afterCalls U db a)) := effectiveOptions_congr hh.versions _
    obtain ⟨p, hp⟩ := hpar v y o hy (fun e => hne (hyx.nil_iff.1 e)) (by rw [he]; exact hopt)
    have := hX y x o hyx
    rw [failParser_none.2 hfail] at this
    exact failParser_none.1 this p hp
  obtain ⟨w, hw⟩ := Option.ne_none_iff_exists'.1 (hnow r' hr' hid')
  refine ⟨hmab, r', hr', w, hw, ?_, by rw [hid']; exact hla.fails hma hmab hr hid hr' hid' hna hnab hn⟩
  rcases hkey with ⟨d, hd⟩ | hk
  · refine .inl (hmab.key_le hr' hw ?_)
    have h5 : v ∈ akeys (histOf ((afterCalls U db a).data db) id) := by
      unfold akeys
      rw [hh.versions]
      exact List.mem_map_of_mem (f := Prod.fst) hd
    rw [hla.hist.keys] at h5
    obtain ⟨z, hz, hzv⟩ := List.mem_map.1 h5
    rw [hid', ← hzv]
    exact List.mem_map_of_mem (List.mem_filter.1 hz).1
  · obtain ⟨o', ho'⟩ := exists_of_key hk
    exact .inr (List.mem_map_of_mem (f := Prod.fst) ((hla.opts v o').1 ho').1)

end Splitgill
