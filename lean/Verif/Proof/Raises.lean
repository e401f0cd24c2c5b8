import Verif.Proof.Canon
import Verif.Proof.Sync6
import Verif.Spec.Raises
/-!
# When a sync raises: proofs
-/

namespace Splitgill

/-! ## Order of keys -/

theorem failsItems_eq (F : Failures) (o : ParsingOptions) : ∀ d : Dict, failsItems F o d = d.any (fun kv => failsIn F o kv.2)
  | [] => by rw [failsItems]; rfl
  | (k, v) :: r => by rw [failsItems, failsItems_eq F o r]; rfl

theorem failsList_eq (F : Failures) (o : ParsingOptions) : ∀ l : List Value, failsList F o l = l.any (failsIn F o)
  | [] => by rw [failsList]; rfl
  | v :: r => by rw [failsList, failsList_eq F o r]; rfl

theorem hintsFail_order {F : Failures} (hF : F.IgnoresOrder) (o : ParsingOptions) {d d' : Dict} (h : DR strictScalarEq d d') :
    hintsFail F o d = hintsFail F o d' := by
  unfold hintsFail
  congr 1
  funext hint
  have h1 := getOrEmpty_eq h hint.lonField
  have h2 := getOrEmpty_eq h hint.latField
  refine hF.hint _ _ _ _ _ _ _ h1.1 h1.2.1 h1.2.2 h2.1 h2.2.1 h2.2.2 ?_
  cases optTruthy hint.radiusField with
  | none => exact .inl ⟨rfl, rfl⟩
  | some r =>
    have h3 := getOrEmpty_eq h r
    exact .inr ⟨_, _, rfl, rfl, h3.1, h3.2.1, h3.2.2⟩

theorem failsItems_order {F : Failures} {o : ParsingOptions} {d d' : Dict} (h : DR strictScalarEq d d')
    (ih : ∀ k v, (k, v) ∈ d → ∀ w, SE v w → failsIn F o v = failsIn F o w) : failsItems F o d = failsItems F o d' := by
  have := h.flatMap_perm (f := fun kv => [failsIn F o kv.2]) (g := fun kv => [failsIn F o kv.2])
    (fun k v w hv _ hr => by rw [ih k v hv w hr])
  rw [← List.map_eq_flatMap, ← List.map_eq_flatMap] at this
  have e := this.any_eq (f := id)
  rw [List.any_map, List.any_map] at e
  rw [failsItems_eq, failsItems_eq]
  exact e

theorem failsIn_order {F : Failures} (hF : F.IgnoresOrder) (o : ParsingOptions) :
    ∀ v w : Value, SE v w → failsIn F o v = failsIn F o w := by
  apply Value.ind' (P := fun v => ∀ w, SE v w → failsIn F o v = failsIn F o w)
  · intro v hv w h
    rw [h.scalar hv]
  · intro l ih w h
    obtain ⟨l', rfl⟩ := VR_left_list h
    have h' := VR_list.1 h
    clear h
    rw [failsIn, failsIn, failsList_eq, failsList_eq]
    induction h' with
    | nil => rfl
    | @cons a b as bs hx ht ih' =>
      rw [List.any_cons, List.any_cons, ih a (by simp) b hx, ih' (fun v hv => ih v (by simp [hv]))]
  · intro d ih w h
    obtain ⟨d', rfl⟩ := VR_left_dict h
    have h' := VR_dict.1 h
    rw [failsIn, failsIn, hintsFail_order hF o h', failsItems_order h' ih, hF.geojson _ _ h.1 h.2.1 h.2.2]
    have hk : ∀ k, ahas k d = ahas k d' := by
      intro k
      unfold ahas
      rcases h'.2.2 k with ⟨e, e'⟩ | ⟨v, w, e, e', _⟩ <;> rw [e, e'] <;> rfl
    have hl : d.isEmpty = d'.isEmpty := by
      have := h'.length
      cases d <;> cases d' <;> simp_all
    rw [hk, hk, hl]

/-! ## The parser with a value for exceptions -/

/-- `tryParse` as a parser. -/
def failParser (E : ParseEnv) (F : Failures) : Parser (Option ParsedData) where
  parse d o :=
    match tryParse E F o d with
    | .ok p => some { p with parsed := canonDict p.parsed }
    | .error _ => none
  eq := (realParser E).eq
  eqSame := (realParser E).eqSame

theorem tryParse_ok {E : ParseEnv} {F : Failures} {o : ParsingOptions} {d : Dict} {p : ParsedData} (h : tryParse E F o d = .ok p) :
    parse E o d = .ok p := by
  unfold tryParse at h
  split at h
  · cases h
  · exact h

theorem failParser_order {E : ParseEnv} (hE : E.IgnoresOrder) {F : Failures} (hF : F.IgnoresOrder) {d d' : Dict}
    (h : SE (.dict d) (.dict d')) (o : ParsingOptions) : (failParser E F).parse d o = (failParser E F).parse d' o := by
  have hd := VR_dict.1 h
  have h1 := realParser_order hE h o
  simp only [failParser, tryParse]
  rw [hintsFail_order hF o hd, failsItems_order hd (fun k v _ w hr => failsIn_order hF o v w hr)]
  cases hintsFail F o d' || failsItems F o d' with
  | true => rfl
  | false => exact h1

variable {E : ParseEnv} {F : Failures}

theorem failParser_none {o : ParsingOptions} {d : Dict} : (failParser E F).parse d o = none ↔ ∀ p, tryParse E F o d ≠ .ok p := by
  simp only [failParser]
  cases h : tryParse E F o d with
  | ok p => simp
  | error e => simp

/-! ## Building -/

/-- No exception so far. -/
def AllParsed (rvs : List (RecordVersion (Option ParsedData))) : Prop := ∀ rv ∈ rvs, rv.parsed ≠ none

theorem tryBuildStep_same {id : PyStr} {allData : List (Int × Dict)} {opts : List (Int × ParsingOptions)} {first : Int}
    {st st' : BuildState (Option ParsedData)} {v : Int} (h : tryBuildStep E F id allData opts first st v = .ok st') :
    buildStep (realParser E) id allData opts first st v = .ok st' := by
  unfold tryBuildStep at h
  unfold buildStep
  split at h
  · rename_i e; rw [if_pos e]; exact h
  · rename_i e
    rw [if_neg e]
    dsimp only at h ⊢
    split at h
    · rename_i e'
      rw [if_pos e']
      cases hr : st.rvs <;> rw [hr] at h <;> exact h
    · rename_i e'
      rw [if_neg e']
      split at h
      · cases h
      · rename_i p hp
        have hp' : (realParser E).parse ((aget v allData).getD st.data) ((aget v opts).getD st.options) =
            some { p with parsed := canonDict p.parsed } := by simp only [realParser, tryParse_ok hp]
        rw [hp']
        cases hr : st.rvs <;> rw [hr] at h <;> exact h

theorem tryBuildLoop_same {id : PyStr} {allData : List (Int × Dict)} {opts : List (Int × ParsingOptions)} {first : Int} :
    ∀ {vs : List Int} {st st' : BuildState (Option ParsedData)}, tryBuildLoop E F id allData opts first st vs = .ok st' →
      buildLoop (realParser E) id allData opts first st vs = .ok st'
  | [], _, _, h => h
  | v :: vs, st, st', h => by
    rw [tryBuildLoop] at h
    split at h
    · cases h
    · rename_i s hs
      rw [buildLoop, tryBuildStep_same hs]
      exact tryBuildLoop_same h

theorem buildStep_fails {id : PyStr} {allData : List (Int × Dict)} {opts : List (Int × ParsingOptions)} {first : Int}
    {st st' : BuildState (Option ParsedData)} {v : Int} (h : buildStep (failParser E F) id allData opts first st v = .ok st')
    (hn : ¬ AllParsed st.rvs) : ¬ AllParsed st'.rvs := by
  unfold buildStep at h
  split at h
  · cases h; exact hn
  · dsimp only at h
    split at h
    · split at h
      · cases h
      · rename_i last rest e
        cases h
        rw [e] at hn
        intro ha
        apply hn
        intro rv hrv
        rcases List.mem_cons.1 hrv with rfl | hrv
        · have := ha _ List.mem_cons_self
          split at this <;> exact this
        · exact ha rv (List.mem_cons_of_mem _ hrv)
    · split at h
      · rename_i e; rw [e] at hn; exact absurd (fun _ h => nomatch h) hn
      · rename_i last rest e
        cases h
        rw [e] at hn
        dsimp only
        split
        · exact hn
        · exact fun ha => hn (fun rv hrv => ha rv (List.mem_cons_of_mem _ hrv))

theorem tryBuildStep_iff {id : PyStr} {allData : List (Int × Dict)} {opts : List (Int × ParsingOptions)} {first : Int}
    {st st' : BuildState (Option ParsedData)} {v : Int} (hst : AllParsed st.rvs) :
    tryBuildStep E F id allData opts first st v = .ok st' ↔
      buildStep (failParser E F) id allData opts first st v = .ok st' ∧ AllParsed st'.rvs := by
  unfold tryBuildStep buildStep
  split
  · exact ⟨fun h => ⟨h, by cases h; exact hst⟩, fun h => h.1⟩
  · dsimp only
    split
    · cases hr : st.rvs with
      | nil => exact ⟨fun h => (nomatch h), fun h => (nomatch h.1)⟩
      | cons last rest =>
        refine ⟨fun h => ⟨h, ?_⟩, fun h => h.1⟩
        cases h
        rw [hr] at hst
        intro rv hrv
        rcases List.mem_cons.1 hrv with rfl | hrv
        · have := hst _ List.mem_cons_self
          split <;> exact this
        · exact hst rv (List.mem_cons_of_mem _ hrv)
    · generalize (aget v allData).getD st.data = d
      generalize (aget v opts).getD st.options = o
      cases hp : tryParse E F o d with
      | error e =>
        have hn : (failParser E F).parse d o = none := by simp only [failParser, hp]
        rw [hn]
        refine ⟨fun h => (nomatch h), fun ⟨h, ha⟩ => ?_⟩
        exfalso
        split at h
        · cases h; exact ha _ List.mem_cons_self rfl
        · rename_i last rest _
          cases h
          dsimp only at ha
          have hq : ∀ s, RecordVersion.eq (failParser E F) s ⟨id, v, none, none⟩ last = false := by
            intro s
            simp only [RecordVersion.eq, failParser, realParser]
            cases last.parsed <;> simp
          rw [hq] at ha
          exact ha _ List.mem_cons_self rfl
      | ok p =>
        have hn : (failParser E F).parse d o = some { p with parsed := canonDict p.parsed } := by simp only [failParser, hp]
        rw [hn]
        dsimp only
        cases hr : st.rvs with
        | nil =>
          refine ⟨fun h => ⟨h, ?_⟩, fun h => h.1⟩
          cases h
          intro rv hrv
          rw [List.mem_singleton] at hrv
          subst hrv; simp
        | cons last rest =>
          refine ⟨fun h => ⟨h, ?_⟩, fun h => h.1⟩
          cases h
          rw [hr] at hst
          dsimp only
          split
          · exact hst
          · intro rv hrv
            rcases List.mem_cons.1 hrv with rfl | hrv
            · simp
            · exact hst rv hrv

theorem buildLoop_fails {id : PyStr} {allData : List (Int × Dict)} {opts : List (Int × ParsingOptions)} {first : Int} :
    ∀ {vs : List Int} {st st' : BuildState (Option ParsedData)}, buildLoop (failParser E F) id allData opts first st vs = .ok st' →
      ¬ AllParsed st.rvs → ¬ AllParsed st'.rvs
  | [], _, _, h, hn => by cases h; exact hn
  | v :: vs, st, st', h, hn => by
    rw [buildLoop] at h
    split at h
    · cases h
    · rename_i s hs
      exact buildLoop_fails h (buildStep_fails hs hn)

theorem tryBuildLoop_iff {id : PyStr} {allData : List (Int × Dict)} {opts : List (Int × ParsingOptions)} {first : Int} :
    ∀ {vs : List Int} {st st' : BuildState (Option ParsedData)}, AllParsed st.rvs →
      (tryBuildLoop E F id allData opts first st vs = .ok st' ↔
        buildLoop (failParser E F) id allData opts first st vs = .ok st' ∧ AllParsed st'.rvs)
  | [], st, st', hst => ⟨fun h => ⟨h, by cases h; exact hst⟩, fun h => h.1⟩
  | v :: vs, st, st', hst => by
    rw [tryBuildLoop, buildLoop]
    cases hb : buildStep (failParser E F) id allData opts first st v with
    | error e =>
      cases ht : tryBuildStep E F id allData opts first st v with
      | error e' => exact ⟨fun h => (nomatch h), fun h => (nomatch h.1)⟩
      | ok s => rw [((tryBuildStep_iff hst).1 ht).1] at hb; cases hb
    | ok s =>
      by_cases hs : AllParsed s.rvs
      · rw [(tryBuildStep_iff hst).2 ⟨hb, hs⟩]
        exact tryBuildLoop_iff hs
      · cases ht : tryBuildStep E F id allData opts first st v with
        | error e' =>
          exact ⟨fun h => (nomatch h), fun h => absurd h.2 (buildLoop_fails h.1 hs)⟩
        | ok s' =>
          have := (tryBuildStep_iff hst).1 ht
          rw [hb] at this
          cases this.1
          exact absurd this.2 hs

theorem tryBuildFrom_same {id : PyStr} {allData : List (Int × Dict)} {opts : List (Int × ParsingOptions)} {rvs}
    (h : tryBuildFrom E F id allData opts = .ok rvs) : buildFrom (realParser E) id allData opts = .ok rvs := by
  unfold tryBuildFrom at h
  unfold buildFrom
  cases h1 : (akeys allData).min? with
  | none => rw [h1] at h; cases h
  | some first =>
    cases h2 : (akeys opts).min? with
    | none => rw [h1, h2] at h; cases h
    | some firstOptions =>
      rw [h1, h2] at h
      dsimp only at h ⊢
      cases h3 : aget first allData with
      | none => rw [h3] at h; cases h
      | some data =>
        cases h4 : aget firstOptions opts with
        | none => rw [h3, h4] at h; cases h
        | some options =>
          rw [h3, h4] at h
          dsimp only at h ⊢
          cases hb : tryBuildLoop E F id allData opts first ⟨data, options, []⟩ (sortedSet (akeys opts ++ akeys allData)) with
          | error e => rw [hb] at h; cases h
          | ok st => rw [hb] at h; rw [tryBuildLoop_same hb]; exact h

theorem tryBuildFrom_iff {id : PyStr} {allData : List (Int × Dict)} {opts : List (Int × ParsingOptions)} {rvs} :
    tryBuildFrom E F id allData opts = .ok rvs ↔ buildFrom (failParser E F) id allData opts = .ok rvs ∧ AllParsed rvs := by
  unfold tryBuildFrom buildFrom
  cases h1 : (akeys allData).min? with
  | none => exact ⟨fun h => (nomatch h), fun h => (nomatch h.1)⟩
  | some first =>
    cases h2 : (akeys opts).min? with
    | none => exact ⟨fun h => (nomatch h), fun h => (nomatch h.1)⟩
    | some firstOptions =>
      dsimp only
      cases h3 : aget first allData with
      | none => exact ⟨fun h => (nomatch h), fun h => (nomatch h.1)⟩
      | some data =>
        cases h4 : aget firstOptions opts with
        | none => exact ⟨fun h => (nomatch h), fun h => (nomatch h.1)⟩
        | some options =>
          dsimp only
          have hi := fun st' => tryBuildLoop_iff (E := E) (F := F) (id := id) (allData := allData) (opts := opts) (first := first)
            (vs := sortedSet (akeys opts ++ akeys allData)) (st := ⟨data, options, []⟩) (st' := st') (fun _ h => nomatch h)
          cases hb : buildLoop (failParser E F) id allData opts first ⟨data, options, []⟩ (sortedSet (akeys opts ++ akeys allData)) with
          | error e =>
            cases ht : tryBuildLoop E F id allData opts first ⟨data, options, []⟩ (sortedSet (akeys opts ++ akeys allData)) with
            | error e' => exact ⟨fun h => (nomatch h), fun h => (nomatch h.1)⟩
            | ok s => rw [((hi s).1 ht).1] at hb; cases hb
          | ok s =>
            by_cases hs : AllParsed s.rvs
            · rw [(hi s).2 ⟨hb, hs⟩]
              dsimp only
              refine ⟨fun h => ⟨h, ?_⟩, fun h => h.1⟩
              cases h
              exact fun rv hrv => hs rv (List.mem_reverse.1 hrv)
            · cases ht : tryBuildLoop E F id allData opts first ⟨data, options, []⟩ (sortedSet (akeys opts ++ akeys allData)) with
              | error e' =>
                refine ⟨fun h => (nomatch h), fun ⟨h, ha⟩ => ?_⟩
                cases h
                exact absurd (fun rv hrv => ha rv (List.mem_reverse.2 hrv)) hs
              | ok s' =>
                have := (hi s').1 ht
                rw [hb] at this
                cases this.1
                exact absurd this.2 hs

theorem tryBuild_same {r : MongoRecord} {opts : List (Int × ParsingOptions)} {rvs} (h : tryBuild E F r opts = .ok rvs) :
    build (realParser E) r opts = .ok rvs := by
  unfold tryBuild at h
  unfold build
  cases hi : r.iter with
  | error e => rw [hi] at h; cases h
  | ok items =>
    rw [hi] at h
    dsimp only at h ⊢
    cases hv : intVersions items with
    | error e => rw [hv] at h; cases h
    | ok allData => rw [hv] at h; exact tryBuildFrom_same h

theorem tryBuild_iff {r : MongoRecord} {opts : List (Int × ParsingOptions)} {rvs} :
    tryBuild E F r opts = .ok rvs ↔ build (failParser E F) r opts = .ok rvs ∧ AllParsed rvs := by
  unfold tryBuild build
  cases hi : r.iter with
  | error e => exact ⟨fun h => (nomatch h), fun h => (nomatch h.1)⟩
  | ok items =>
    dsimp only
    cases hv : intVersions items with
    | error e => exact ⟨fun h => (nomatch h), fun h => (nomatch h.1)⟩
    | ok allData => exact tryBuildFrom_iff

/-! ## Operations -/

theorem tryGenerateOps_same {maxDocs : Nat} {opts : List (Int × ParsingOptions)} {after : Option Int} :
    ∀ {rs : List MongoRecord} {arc : Nat × Nat} {x}, tryGenerateOps E F maxDocs opts after arc rs = .ok x →
      generateOps (realParser E) maxDocs opts after arc rs = .ok x
  | [], _, _, h => h
  | r :: rs, arc, x, h => by
    rw [tryGenerateOps] at h
    rw [generateOps]
    split at h
    · cases h
    · cases h
    · rename_i rvs hne hb
      rw [tryBuild_same hb]
      cases rvs with
      | nil => exact absurd rfl hne
      | cons a b =>
        dsimp only at h ⊢
        split at h
        · cases h
        · rename_i ht
          rw [tryGenerateOps_same ht]
          exact h

/-- The operations can be made iff every record can be built. -/
theorem tryGenerateOps_ok {maxDocs : Nat} {opts : List (Int × ParsingOptions)} {after : Option Int} :
    ∀ {rs : List MongoRecord} {arc : Nat × Nat}, (∃ x, tryGenerateOps E F maxDocs opts after arc rs = .ok x) ↔
      ∀ r ∈ rs, ∃ rvs, tryBuild E F r opts = .ok rvs ∧ rvs ≠ []
  | [], arc => ⟨fun _ _ h => (nomatch h), fun _ => ⟨_, rfl⟩⟩
  | r :: rs, arc => by
    constructor
    · rintro ⟨x, h⟩ r' hr'
      rw [tryGenerateOps] at h
      split at h
      · cases h
      · cases h
      · rename_i rvs hne hb
        dsimp only at h
        split at h
        · cases h
        · rename_i ht
          rcases List.mem_cons.1 hr' with rfl | hr'
          · exact ⟨rvs, hb, hne⟩
          · exact tryGenerateOps_ok.1 ⟨_, ht⟩ r' hr'
    · intro h
      obtain ⟨rvs, hb, hne⟩ := h r List.mem_cons_self
      rw [tryGenerateOps, hb]
      cases rvs with
      | nil => exact absurd rfl hne
      | cons a b =>
        dsimp only
        obtain ⟨x, hx⟩ := tryGenerateOps_ok (maxDocs := maxDocs) (opts := opts) (after := after) (rs := rs)
          (arc := (rvOps maxDocs after r.id arc (a :: b)).2) |>.2 (fun r' hr' => h r' (List.mem_cons_of_mem _ hr'))
        rw [hx]
        exact ⟨_, rfl⟩

/-! ## Syncs -/

theorem trySync_same {maxDocs : Nat} {db : PyStr} {resync : Bool} {m : Mongo} {es es' : ES (Option ParsedData)}
    (h : trySync E F maxDocs db resync m es = .ok es') : sync (realParser E) maxDocs db resync m es = .ok es' := by
  unfold trySync at h
  unfold sync syncOps
  split at h
  · rename_i e
    rw [if_pos e]
    cases h; rfl
  · rename_i e
    rw [if_neg e]
    cases hs : syncScope db resync m es with
    | error e => rw [hs] at h; cases h
    | ok x =>
      rw [hs] at h
      cases x with
      | none => cases h; rfl
      | some x =>
        obtain ⟨sel, last⟩ := x
        dsimp only at h ⊢
        split at h
        · cases h
        · rename_i ht
          rw [tryGenerateOps_same ht]
          exact h

theorem tryResyncArcs_same {maxDocs : Nat} {db : PyStr} {m : Mongo} {es es' : ES (Option ParsedData)}
    (h : tryResyncArcs E F maxDocs db m es = .ok es') : resyncArcs (realParser E) maxDocs db m es = .ok es' := by
  unfold tryResyncArcs at h
  unfold resyncArcs
  dsimp only at h ⊢
  split at h
  · cases h
  · rename_i ht
    rw [tryGenerateOps_same ht]
    exact h

theorem tryRunSyncs_same {maxDocs : Nat} {db : PyStr} : ∀ {ms : List Mongo} {es es' : ES (Option ParsedData)},
    tryRunSyncs E F maxDocs db es ms = .ok es' → runSyncs (realParser E) maxDocs db es ms = .ok es'
  | [], _, _, h => h
  | m :: ms, es, es', h => by
    rw [tryRunSyncs] at h
    rw [runSyncs]
    split at h
    · cases h
    · rename_i ht
      rw [trySync_same ht]
      exact tryRunSyncs_same h

theorem createDocs_parsed {P : Type} : ∀ (rvs : List (RecordVersion P)), (createDocs rvs).map (·.parsed) = rvs.map (·.parsed)
  | [] => rfl
  | rv :: rest => by rw [createDocs, List.map_cons, List.map_cons, createDocs_parsed rest]; rfl

theorem allParsed_iff {rvs : List (RecordVersion (Option ParsedData))} :
    AllParsed rvs ↔ ∀ d ∈ createDocs rvs, d.parsed ≠ none := by
  have h := createDocs_parsed rvs
  constructor
  · intro ha d hd
    have := List.mem_map_of_mem (f := fun x : Doc (Option ParsedData) => x.parsed) hd
    rw [h] at this
    obtain ⟨rv, h1, h2⟩ := List.mem_map.1 this
    rw [← h2]; exact ha rv h1
  · intro ha rv hrv
    have := List.mem_map_of_mem (f := fun x : RecordVersion (Option ParsedData) => x.parsed) hrv
    rw [← h] at this
    obtain ⟨d, h1, h2⟩ := List.mem_map.1 this
    rw [← h2]; exact ha d h1

variable {db : PyStr} {m : Mongo}

/-- A record can be built iff its documents hold no exceptions. -/
theorem tryBuild_docs (hm : DbOk db m) {r : MongoRecord} (hr : r ∈ m.data db) (hv : r.version.isSome = true) :
    (∃ rvs, tryBuild E F r (committedOptionsOf db m) = .ok rvs ∧ rvs ≠ []) ↔
      ∀ d ∈ dbDocs (failParser E F) db m r, d.parsed ≠ none := by
  obtain ⟨rvs, h1, h2, h3⟩ := hm.build (failParser E F) hr hv
  rw [h3, ← allParsed_iff]
  constructor
  · rintro ⟨rvs', h, _⟩
    have := tryBuild_iff.1 h
    rw [h1] at this
    cases this.1
    exact this.2
  · exact fun ha => ⟨rvs, tryBuild_iff.2 ⟨h1, ha⟩, h2⟩

theorem PartitionsTime.parses {id : PyStr} {hist : List (Int × Dict)} {opts : List (Int × ParsingOptions)}
    {docs : List (Doc (Option ParsedData))}
    (h : PartitionsTime (failParser E F) id hist (effectiveOptions hist opts) docs)
    (hex : ∀ v, Alive hist v → ∃ o, OptionsAsOf (effectiveOptions hist opts) v o) :
    (∀ d ∈ docs, d.parsed ≠ none) ↔ Parses E F hist opts := by
  constructor
  · intro hd v a o ha hne ho
    obtain ⟨d, h1, h2⟩ := (h.covered v).2 ⟨a, ha, hne⟩
    apply Classical.byContradiction
    intro hno
    have hn : (failParser E F).parse a o = none := failParser_none.2 (fun p hp => hno ⟨p, hp⟩)
    have := h.content v d h1 h2 a o ha ho
    rw [hn] at this
    rcases this with e | e
    · exact hd d h1 e
    · revert e
      simp only [failParser, realParser]
      cases d.parsed <;> simp
  · intro hp d hd hn
    have hcov : d.covers d.gte := ⟨Int.le_refl _, fun e he => h.range d hd e he⟩
    have hal := (h.covered d.gte).1 ⟨d, hd, hcov⟩
    obtain ⟨a, ha, hne⟩ := hal
    obtain ⟨o, ho⟩ := hex d.gte ⟨a, ha, hne⟩
    have := h.start d hd a o ha ho
    rw [hn] at this
    obtain ⟨p, hp⟩ := hp d.gte a o ha hne ho
    exact failParser_none.1 this.symm p hp

end Splitgill
