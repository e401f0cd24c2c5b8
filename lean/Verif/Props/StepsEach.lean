import Verif.Props.EverEach
import Verif.Proof.CrashQueries
/-!
# C90, C129 and C130 for single records of databases whose calls may be stopped half way
-/

namespace Splitgill

/-- The conditions of C90 for one record, with calls that may be stopped half way: it has nothing uncommitted at the syncs, it is not changed and then
deleted between two syncs, and no two data given for it hold equal but different scalars at the same place. Nothing is said about other records. -/
structure QuietInSteps (U : Unicode) (db : PyStr) (first : List Step) (parts : List (List Step)) (id : PyStr) : Prop where
  noPending : ∀ m ∈ stepStates U db first parts, NoPendingOf db id m
  noUpdateDelete : EachStepPart (NoUpdateDeleteOf db id) U db first parts
  noPuns : NoPunsAmong U (((first ++ parts.flatten).flatMap Step.stream).filter (fun r => decide (r.id = id)))

end Splitgill

namespace Splitgill.Props
open Splitgill

variable {K : PyStr → DataClass} {U : Unicode} {db : PyStr}

theorem crash_evolves {a b : List Step} (hq : ∀ c ∈ a ++ b, Fits K U c.stream) (h : OrderlySteps (a ++ b))
    (hv : committedOptionsOf db (afterSteps U db a) ≠ []) :
    ∃ t, (a.filterMap Step.clock?).getLast? = some t ∧ ∃ s, LifeInv K db (afterSteps U db a) s (some t) ∧
      ∃ s' hi, LifeInv K db (afterSteps U db (a ++ b)) s' hi ∧ Evolves (some t) (afterSteps U db a) (afterSteps U db (a ++ b)) s s' := by
  obtain ⟨s, _, hs⟩ := crash_life (K := K) (U := U) (db := db) (fun c hc => hq c (List.mem_append_left _ hc)) h.left
  obtain ⟨d, hd, hdv⟩ := committed_options_of hv
  obtain ⟨v, hv'⟩ := Option.ne_none_iff_exists'.1 hdv
  obtain ⟨t, ht, _⟩ := hs.optVers d hd v hv'
  have htl : (a.filterMap Step.clock?).getLast? = some t := by rw [lastStepClock_eq, Option.or_none] at ht; exact ht
  have hlt : ∀ c ∈ b.filterMap Step.clock?, t < c := by
    intro c hc
    have := h.clock
    rw [List.filterMap_append, List.pairwise_append] at this
    exact this.2.2 t (List.mem_of_getLast? htl) c hc
  rw [ht] at hs
  obtain ⟨s', _, h1, h2⟩ := LifeInv.steps (U := U) b hs (fun c hc => by simpa [gtAfter] using hlt c hc)
    (fun c hc => hq c (List.mem_append_right _ hc)) h.right
  rw [← afterSteps_append] at h1 h2
  exact ⟨t, htl, s, hs, s', _, h1, h2⟩

theorem laterFor_options {P : Type} {X : Parser P} {id : PyStr} {m m' : Mongo} {t : Int} (h : LaterFor X db id t m m')
    (hm : committedOptionsOf db m ≠ []) : committedOptionsOf db m' ≠ [] := by
  obtain ⟨⟨v, o⟩, hmem⟩ := List.exists_mem_of_ne_nil _ hm
  exact List.ne_nil_of_mem ((h.opts v o).1 hmem).1

theorem lastClock_append {a b : List Step} (ho : OrderlySteps (a ++ b)) {t t' : Int} (h : (a.filterMap Step.clock?).getLast? = some t)
    (h' : ((a ++ b).filterMap Step.clock?).getLast? = some t') : t ≤ t' := by
  rw [List.filterMap_append] at h'
  have hc := ho.clock
  rw [List.filterMap_append, List.pairwise_append] at hc
  cases hb : b.filterMap Step.clock? with
  | nil =>
    rw [hb, List.append_nil, h] at h'
    cases h'; omega
  | cons x l =>
    rw [hb, List.getLast?_append_of_ne_nil _ (by simp)] at h'
    have := hc.2.2 t (List.mem_of_getLast? h) t' (by rw [hb]; exact List.mem_of_getLast? h')
    omega

theorem crash_timelineFor {P : Type} {X : Parser P} {id : PyStr} (hX : ∀ a b o, DEq (K id) a b → X.parse a o = X.parse b o) :
    ∀ (parts : List (List Step)) (first : List Step) (s : Int), (∀ c ∈ first ++ parts.flatten, Fits K U c.stream) →
      OrderlySteps (first ++ parts.flatten) → committedOptionsOf db (afterSteps U db first) ≠ [] →
      (∀ t, (first.filterMap Step.clock?).getLast? = some t → s ≤ t) →
      EachStepPart (NoUpdateDeleteOf db id) U db first parts → (∀ m ∈ stepStates U db first parts, NoPendingOf db id m) →
      TimelineFor X db id s (stepStates U db first parts)
  | [], first, s, hq, ho, hv, hs, _, hp => by
    have hq' : ∀ c ∈ first ++ [], Fits K U c.stream := by simpa using hq
    have ho' : OrderlySteps (first ++ []) := by simpa using ho
    obtain ⟨t, h1, _, h2, _⟩ := crash_evolves hq' ho' hv
    rw [List.append_nil] at ho'
    exact ⟨crash_dbOk ho' hv, hp _ (by simp [stepStates]), t, hs t h1, h2.keysUpTo⟩
  | part :: parts, first, s, hq, ho, hv, hs, he, hp => by
    rw [List.flatten_cons, ← List.append_assoc] at ho hq
    have ok := crash_dbOk ho.left.left hv
    obtain ⟨t, h1, s0, h2, s', hi, h3, h4⟩ := crash_evolves (fun c hc => hq c (List.mem_append_left _ hc)) ho.left hv
    have hl := h4.laterFor hX h2 h3
    have ih := crash_timelineFor hX parts (first ++ part) t hq ho (laterFor_options hl hv) (fun t' ht' => lastClock_append ho.left h1 ht')
      he.2 (fun m hm => hp m (List.mem_cons_of_mem _ hm))
    have e : stepStates U db (first ++ part) parts = afterSteps U db (first ++ part) :: (stepStates U db (first ++ part) parts).tail := by
      cases parts <;> rfl
    have hp0 := hp _ List.mem_cons_self
    rw [e] at ih
    rw [stepStates, e]
    exact ⟨ok, hp0, t, hs t h1, h2.keysUpTo, hl, he.1 t h1, ih⟩

/-- The options that are committed stay. -/
theorem crash_options : ∀ {first : List Step} {rest : List Step}, OrderlySteps (first ++ rest) →
    committedOptionsOf db (afterSteps U db first) ≠ [] → committedOptionsOf db (afterSteps U db (first ++ rest)) ≠ [] := by
  intro first rest ho hv
  obtain ⟨t, h1, s0, h2, s', hi, h3, h4⟩ := crash_evolves (K := fun _ => plainClass) (fun c _ => fits_plain U c.stream) ho hv
  exact laterFor_options (h4.laterFor (X := (⟨fun _ _ => (), fun _ _ => true, fun _ _ => true⟩ : Parser Unit)) (id := [])
    (fun _ _ _ _ => rfl) h2 h3) hv

theorem crash_dbOks : ∀ (parts : List (List Step)) (first : List Step), OrderlySteps (first ++ parts.flatten) →
    committedOptionsOf db (afterSteps U db first) ≠ [] → ∀ m ∈ stepStates U db first parts, DbOk db m
  | [], first, ho, hv, m, hm => by
    rw [List.flatten_nil, List.append_nil] at ho
    rw [stepStates, List.mem_singleton] at hm
    subst hm
    exact crash_dbOk ho hv
  | part :: parts, first, ho, hv, m, hm => by
    rw [List.flatten_cons, ← List.append_assoc] at ho
    rcases List.mem_cons.1 hm with rfl | hm
    · exact crash_dbOk ho.left.left hv
    · exact crash_dbOks parts (first ++ part) ho (crash_options ho.left hv) m hm

theorem timelineFor_found {E : ParseEnv} {id : PyStr} {maxDocs : Nat} {l : List Mongo} {m : Mongo} {s : Int} {es : ES (Option ParsedData)}
    (hl : l.getLast? = some m) (hm : DbOk db m) (ht : TimelineFor (realParser E) db id s l)
    (hr : runSyncs (realParser E) maxDocs db [] l = .ok es) :
    VersionsOf es id ∧ ∀ v, (foundFor es (.version v) id).Perm
      ((recDocs (realParser E) (committedOptionsOf db m) (m.data db) id).filter (fun d => d.inRange v)) := by
  cases l with
  | nil => cases hl
  | cons a l =>
    obtain ⟨es', t', k1, k2, k3⟩ := runSyncs_each_first (realParser E) db id maxDocs l a s ht
    rw [hr] at k1
    cases k1
    rw [List.getLast?_eq_some_getLast (by simp)] at hl
    have e : (a :: l).getLast (by simp) = m := Option.some.inj hl
    rw [e] at k3
    exact ⟨versionsOf_of k2 (hm.good _ id) k3, k3.found k2 (hm.good _ id)⟩

/-! ### One history for all records -/

theorem ingest_diag (U : Unicode) (mf : Option PyStr) : ∀ (rs : List Record) (F : PyStr → Store) (id : PyStr),
    Store.ingest U mf rs (fun i => F i i) id = Store.ingest U mf rs (F id) id := by
  have key : ∀ (rs : List Record) (s s' : Store) (id : PyStr), s id = s' id → Store.ingest U mf rs s id = Store.ingest U mf rs s' id := by
    intro rs
    induction rs with
    | nil => exact fun s s' id h => h
    | cons r rs ih =>
      intro s s' id h
      refine ih _ _ id ?_
      dsimp only
      rw [h]
  exact fun rs F id => key rs _ _ id rfl

theorem effect_diag (U : Unicode) (ret : Option Int) (c : ApiCall) (F : PyStr → Store) (id : PyStr) :
    c.effect U ret (fun i => F i i) id = c.effect U ret (F id) id := by
  cases c <;> cases ret <;> simp only [ApiCall.effect, ingest_diag]

theorem spec_diag {m : Mongo} {st : Step} {F H : PyStr → Store} (h : ∀ i, st.Spec U db m (F i) (H i)) :
    st.Spec U db m (fun i => F i i) (fun i => H i i) := by
  cases st with
  | call c =>
    simp only [Step.Spec] at h ⊢
    split at h
    · exact fun id => by rw [effect_diag]; exact h id id
    · exact fun id => by rw [effect_diag]; exact h id id
  | ingestStops mf rs n => exact fun id => by rw [ingest_diag]; exact h id id
  | rollbackStops n => exact fun id => h id id
  | optionsStop o => exact fun id => h id id
  | commitStops clock l b => exact ⟨fun hl id => (h id).1 hl id, fun id => (h id).2 id⟩
  | release => exact fun id => h id id

theorem stepsSpec_diag : ∀ (steps : List Step) {m : Mongo} {F G : PyStr → Store}, (∀ i, StepsSpec U db m (F i) steps (G i)) →
    StepsSpec U db m (fun i => F i i) steps (fun i => G i i)
  | [], m, F, G, h => fun id => h id id
  | st :: steps, m, F, G, h => by
    choose H h1 h2 using h
    exact ⟨fun i => H i i, spec_diag h1, stepsSpec_diag steps h2⟩

theorem holdsAsOf_congr {s s' : Store} {id : PyStr} (e : s id = s' id) (opts : List (Int × ParsingOptions)) (v : Int)
    (P : Dict → ParsingOptions → Prop) : HoldsAsOf s opts v id P ↔ HoldsAsOf s' opts v id P := by
  unfold HoldsAsOf; rw [e]

theorem holdsNow_congr {s s' : Store} {id : PyStr} (e : s id = s' id) (opts : List (Int × ParsingOptions))
    (P : Dict → ParsingOptions → Prop) : HoldsNow s opts id P ↔ HoldsNow s' opts id P := by
  unfold HoldsNow; rw [e]

theorem FindsJust.congr {s s' : Store} {id : PyStr} (e : s id = s' id) {opts : List (Int × ParsingOptions)} {es : ES (Option ParsedData)}
    {Q : QueryEnv} {q : EsQuery} {P : Dict → ParsingOptions → Prop} (h : FindsJust s opts es id Q q P) : FindsJust s' opts es id Q q P :=
  ⟨fun v => (h.atVersion v).trans (holdsAsOf_congr e opts v P), h.now.trans (holdsNow_congr e opts P)⟩

theorem AnswersAbout.congr {E : ParseEnv} {s s' : Store} {id : PyStr} (e : s id = s' id) {opts : List (Int × ParsingOptions)}
    {es : ES (Option ParsedData)} (h : AnswersAbout E s opts es id) : AnswersAbout E s' opts es id :=
  ⟨fun hk Q field k hb => (h.asked hk Q field k hb).imp fun _ g => ⟨g.1, g.2.congr e⟩, fun Q query field every => (h.text Q query field every).congr e,
    fun hP Q field hk => (h.values hP Q field hk).congr e, fun Q => (h.places Q).congr e, h.once⟩

theorem answersEverOf_of {E : ParseEnv} {s : Store} {id : PyStr} {opts : List (Int × ParsingOptions)} {es : ES (Option ParsedData)}
    (hvs : VersionsOf es id) (ha : AnswersAbout E s opts es id) : AnswersEverOf E s opts es id := by
  refine ⟨fun hk Q field k hb => ?_, fun Q query field every => findsEverOf_of hvs (ha.text Q query field every),
    fun hP Q field hk => findsEverOf_of hvs (ha.values hP Q field hk), fun Q => findsEverOf_of hvs (ha.places Q)⟩
  obtain ⟨q, g1, g2⟩ := ha.asked hk Q field k hb
  exact ⟨q, g1, findsEverOf_of hvs g2⟩

/-- **C90**, **C129** and **C130** with calls that may be stopped half way: after any steps and syncs between them, all of which succeed, queries at all
versions, without a version, and on all versions find a record for which the conditions hold just where it has what is asked for, in histories that
the steps may have given; whatever happens to other records. -/
theorem C129_each_steps (E : ParseEnv) (hE : E.IgnoresOrder) (hS : E.ScalarHints) (U : Unicode) (hU : U.Sane) (maxDocs : Nat) (db : PyStr)
    (first : List Step) (parts : List (List Step)) (ho : OrderlySteps (first ++ parts.flatten))
    (hv : committedOptionsOf db (afterSteps U db first) ≠ []) :
    ∃ es s, runSyncs (realParser E) maxDocs db [] (stepStates U db first parts) = .ok es ∧
      PossibleHistories U db (first ++ parts.flatten) s ∧
      ∀ id, QuietInSteps U db first parts id → VersionsOf es id ∧
        AnswersAbout E s (committedOptionsOf db (afterSteps U db (first ++ parts.flatten))) es id ∧
        AnswersEverOf E s (committedOptionsOf db (afterSteps U db (first ++ parts.flatten))) es id := by
  have hms := crash_dbOks parts first ho hv
  obtain ⟨ms, hlast⟩ := stepStates_getLast U db parts first
  have hm := hms _ (by rw [hlast]; simp : afterSteps U db (first ++ parts.flatten) ∈ stepStates U db first parts)
  obtain ⟨es, h1, hok⟩ := runSyncs_ok (realParser E) maxDocs _ [] hms latestOk_nil
  obtain ⟨es0, h0, h2, h3⟩ := C30_first_sync (realParser E) maxDocs db _ hm
  have each : ∀ id, ∃ s, PossibleHistories U db (first ++ parts.flatten) s ∧ (QuietInSteps U db first parts id → VersionsOf es id ∧
      AnswersAbout E s (committedOptionsOf db (afterSteps U db (first ++ parts.flatten))) es id) := by
    intro id
    by_cases h : QuietInSteps U db first parts id
    swap
    · obtain ⟨s, hs, _⟩ := crash_life (K := fun _ => plainClass) (U := U) (db := db) (fun c _ => fits_plain U c.stream) ho
      exact ⟨s, hs, fun h' => absurd h' h⟩
    have hR := realParser_respects (E := E) hE (fun _ => placesOf U _ h.noPuns id)
    have hX : ∀ a b o, DEq ((classFor id (placesOf U _ h.noPuns id) id).named) a b → (realParser E).parse a o = (realParser E).parse b o := by
      rw [classFor_self]
      exact fun a b o => hR.named id a b o
    have hq : ∀ c ∈ first ++ parts.flatten, Fits (fun i => (classFor id (placesOf U _ h.noPuns id) i).named) U c.stream := fun c hc =>
      fits_classFor hU id h.noPuns (fun r hr => List.mem_flatMap.2 ⟨c, hc, hr⟩)
    obtain ⟨t, htl, _⟩ := crash_evolves hq ho hv
    have ht := crash_timelineFor (db := db) hX parts first t hq ho hv (fun t' h' => by rw [htl] at h'; cases h'; omega) h.noUpdateDelete h.noPending
    have ht0 := crash_timelineFor (db := db) hX [] (first ++ parts.flatten) t (by rw [List.flatten_nil, List.append_nil]; exact hq)
      (by rw [List.flatten_nil, List.append_nil]; exact ho) (crash_options ho hv) (fun t' h' => lastClock_append ho htl h') trivial
      (fun m hm => h.noPending m (by
        rw [stepStates, List.mem_singleton] at hm
        rw [hlast, hm]; simp))
    obtain ⟨hvs, k1⟩ := timelineFor_found (by rw [hlast]; simp) hm ht h1
    obtain ⟨_, k0⟩ := timelineFor_found (l := stepStates U db (first ++ parts.flatten) []) rfl hm ht0
      (es := es0) (maxDocs := maxDocs) (by simp only [stepStates, runSyncs, h0])
    have hsame : ∀ v, foundFor es (.version v) id = foundFor es0 (.version v) id := fun v => perm_le_one (k1 v) (k0 v) (hm.found_le _ id v)
    obtain ⟨s, hs, hli⟩ := crash_life hq ho (db := db)
    exact ⟨s, hs, fun _ => ⟨hvs, answersAbout_of hE hS hli hm h2 h3 (T := placesOf U _ h.noPuns id) (by rw [classFor_self]) hok
      (fun v => ⟨hsame v, mem_searchFor (hsame v)⟩)⟩⟩
  choose G hG hA using each
  refine ⟨es, fun i => G i i, h1, stepsSpec_diag _ (F := fun _ => Store.empty) hG, fun id h => ?_⟩
  have ha := ((hA id h).2).congr (s' := fun i => G i i) rfl
  exact ⟨(hA id h).1, ha, answersEverOf_of (hA id h).1 ha⟩

/-- Two records are committed and synced; … -/
def exHalf1 : List Step := [.call (.ingest none [exRec ['a'] 1, exRec ['b'] 1] true 1)]
/-- … then the commit of a change of `a` and a new record `c` dies after the first of them. -/
def exHalf2 : List Step := [.call (.ingest none [exRec ['a'] 2, exRec ['c'] 1] false 1), .commitStops 2 (List.replicate 5 0) true]

set_option maxRecDepth 100000 in
/-- The conditions hold for `a` and not for `c`, which has uncommitted data at the second sync. Searches find the new data of `a`. -/
example : OrderlySteps (exHalf1 ++ [exHalf2].flatten) ∧ committedOptionsOf ['x'] (afterSteps asciiU ['x'] exHalf1) ≠ [] ∧
    QuietInSteps asciiU ['x'] exHalf1 [exHalf2] ['a'] ∧ ¬ QuietInSteps asciiU ['x'] exHalf1 [exHalf2] ['c'] ∧
    (match runSyncs (realParser exEnv') 10 ['x'] [] (stepStates asciiU ['x'] exHalf1 [exHalf2]), (Asked.number (.int 1)).query exQuery ['x'],
        (Asked.number (.int 2)).query exQuery ['x'] with
      | .ok es, .ok q, .ok q' => decide (foundIds (es.searchFor exQuery .latest q) = [['b']] ∧ foundIds (es.searchFor exQuery .latest q') = [['a']] ∧
          ['a'] ∈ foundIds (es.searchFor exQuery (.version 1) q) ∧
          (es.searchFor exQuery .all q').map (fun d : Doc (Option ParsedData) => (d.id, d.gte, d.lt)) = [(['a'], 2, none)])
      | _, _, _ => false) = true := by
  refine ⟨⟨by decide, ?_⟩, by decide +kernel, ⟨?_, ⟨?_, trivial⟩, ?_⟩, ?_, by decide +kernel⟩
  · intro c hc
    simp [exHalf1, exHalf2] at hc
    rcases hc with rfl | rfl | rfl <;> unfold NoSpan <;> decide
  · have : ∀ m ∈ stepStates asciiU ['x'] exHalf1 [exHalf2], ∀ r ∈ m.data ['x'], r.id = ['a'] → r.version ≠ none := by decide +kernel
    exact this
  · intro t _ _ hd
    obtain ⟨w, hw⟩ := hd
    have : (histOf ((afterSteps asciiU ['x'] (exHalf1 ++ exHalf2)).data ['x']) ['a']).head? =
      some (2, [(['x'], .int 2), ("_id".toList, .str ['a'])]) := by decide +kernel
    have h2 := hw.symm.trans this
    cases h2
  · apply noPuns_of_flat <;> decide +kernel
  · intro h
    have : ∃ m ∈ stepStates asciiU ['x'] exHalf1 [exHalf2], ∃ r ∈ m.data ['x'], r.id = ['c'] ∧ r.version = none := by decide +kernel
    obtain ⟨m, hm, r, hr, h1, h2⟩ := this
    exact h.noPending m hm r hr h1 h2

end Splitgill.Props
