import Verif.Proof.Reads
import Verif.Proof.Crash
import Verif.Spec.SyncRace
import Verif.Spec.Search
/-!
# Lemmas for C125: databases as the API leaves them, and syncs
-/

namespace Splitgill

variable {P : Type} {X : Parser P} {maxDocs : Nat} {db : PyStr} {states : Nat → Mongo} {K : PyStr → DataClass}

theorem RColl.dataOk {m : Mongo} {s : Store} (h : RColl K (m.data db) s) (hf : ∀ id, FirstOk (s id)) : DataOk db m := by
  intro r hr hv
  obtain ⟨v, hv⟩ := Option.isSome_iff_exists.1 hv
  have hm : ∃ m' : Mongo, m'.data db = m.data db ∧ ValidOptions (committedOptionsOf db m') :=
    ⟨{ m with options := [⟨db, some 0, ⟨[], [], [], [], 0, []⟩⟩] }, rfl, by
      refine ⟨?_, committedOptionsOf_nodup db _⟩
      have := (getOptions_keys (db := db) (m := { m with options := [⟨db, some 0, ⟨[], [], [], [], 0, []⟩⟩] }) (some 0)).2
        ⟨rfl, _, List.mem_singleton.2 rfl, rfl, rfl⟩
      obtain ⟨⟨k, o⟩, h1, h2⟩ := List.mem_map.1 this
      simp only at h2; subst h2
      exact List.ne_nil_of_mem (committedOptionsOf_mem.2 h1)⟩
  obtain ⟨m', e, ho⟩ := hm
  exact dataOk_congr (RColl.dbOk (by rw [e]; exact h) hf ho).dataOk e.symm r hr (by rw [hv]; rfl)

theorem steps_dataOk {U : Unicode} {steps : List Step} (h : OrderlySteps steps) : DataOk db (afterSteps U db steps) := by
  obtain ⟨s, _, hs⟩ := crash_life (K := fun _ => plainClass) (U := U) (db := db) (fun c _ => fits_plain U c.stream) h
  exact RColl.dataOk hs.rep hs.first

theorem OrderlySteps.take {steps : List Step} (h : OrderlySteps steps) (t : Nat) : OrderlySteps (steps.take t) :=
  OrderlySteps.left (b := steps.drop t) (by rw [List.take_append_drop]; exact h)

theorem lastStepClock_append (hi : Option Int) (a b : List Step) : lastStepClock hi (a ++ b) = lastStepClock (lastStepClock hi a) b :=
  List.foldl_append ..

/-- The last clock value does not go back. -/
theorem lastStepClock_below {a b : List Step} (h : OrderlySteps (a ++ b)) {v : Int} (hv : Below (lastStepClock none a) v) :
    Below (lastStepClock none (a ++ b)) v := by
  rw [lastStepClock_eq, List.filterMap_append] 
  rw [lastStepClock_eq] at hv
  obtain ⟨u, hu, hle⟩ := hv
  have hc := h.clock
  rw [List.filterMap_append] at hc
  cases e : (b.filterMap Step.clock?).getLast? with
  | none => 
    rw [List.getLast?_eq_none_iff.1 e, List.append_nil]
    exact ⟨u, hu, hle⟩
  | some w =>
    refine ⟨w, by rw [List.getLast?_append, e]; rfl, ?_⟩
    have hu' : (a.filterMap Step.clock?).getLast? = some u := by
      cases e' : (a.filterMap Step.clock?).getLast? with
      | none => rw [e'] at hu; cases hu
      | some x => rw [e'] at hu; exact hu
    have := (List.pairwise_append.1 hc).2.2 u (List.mem_of_getLast? hu') w (List.mem_of_getLast? e)
    omega

/-- Which options are looked at does not change when newer versions are added to the history. -/
theorem effectiveOptions_hist {B : Int → Prop} {h h' : List (Int × Dict)} (l : List (Int × ParsingOptions)) (hne : h ≠ []) (hh : AddsIn B h h')
    (hB : ∀ x ∈ h, ∀ v, B v → x.1 < v) : effectiveOptions h' l = effectiveOptions h l := by
  unfold effectiveOptions
  refine List.filter_congr fun wo _ => ?_
  congr 1
  rw [Bool.eq_iff_iff, List.any_eq_true, List.any_eq_true]
  constructor
  · rintro ⟨x, hx, hle⟩
    rcases hh.new x hx with hx | hx
    · exact ⟨x, hx, hle⟩
    · obtain ⟨y, hy⟩ := List.exists_mem_of_ne_nil _ hne
      have := hB y hy _ hx
      simp only [decide_eq_true_eq] at hle
      exact ⟨y, hy, by simp only [decide_eq_true_eq]; omega⟩
  · rintro ⟨x, hx, hle⟩
    exact ⟨x, hh.sub x hx, hle⟩

theorem effectiveOptions_versions {h h' : List (Int × Dict)} (l : List (Int × ParsingOptions)) (e : h.map Prod.fst = h'.map Prod.fst) :
    effectiveOptions h l = effectiveOptions h' l := by
  unfold effectiveOptions
  refine List.filter_congr fun wo _ => ?_
  have : ∀ k : List (Int × Dict), k.any (fun vd => decide (vd.1 ≤ wo.1)) = (k.map Prod.fst).any (fun v => decide (v ≤ wo.1)) := fun k => by
    rw [List.any_map]; rfl
  rw [this, this, e]

/-- What is shown, told from the end. -/
theorem shows_steps {U : Unicode} {steps : List Step} (hq : ∀ c ∈ steps, Fits K U c.stream) (h : OrderlySteps steps) {d : Doc P} {t t' : Nat} {a : Dict}
    {o : ParsingOptions} (hd : ShowsCommitted X db (fun t => afterSteps U db (steps.take t)) d t t' a o) :
    ∃ b, AsOf (histOf ((afterSteps U db steps).data db) d.id) d.version b ∧ DEq (K d.id) b a ∧
      OptionsAsOf (effectiveOptions (histOf ((afterSteps U db steps).data db) d.id) (committedOptionsOf db (afterSteps U db (steps.take t)))) d.version o := by
  have hpre := h.take t'
  obtain ⟨s, _, hs⟩ := crash_life (K := K) (U := U) (db := db) (fun c hc => hq c (List.mem_of_mem_take hc)) hpre
  obtain ⟨s0, _, hs0⟩ := crash_life (K := K) (U := U) (db := db) (fun c hc => hq c (List.mem_of_mem_take hc)) (h.take t)
  have hsplit : steps = steps.take t' ++ steps.drop t' := (List.take_append_drop _ _).symm
  have hgt : ∀ c ∈ (steps.drop t').filterMap Step.clock?, gtAfter (lastStepClock none (steps.take t')) c = true := by
    intro c hc
    rw [lastStepClock_eq]
    cases e : ((steps.take t').filterMap Step.clock?).getLast? with
    | none => rfl
    | some v =>
      have := h.clock
      rw [hsplit, List.filterMap_append] at this
      have := (List.pairwise_append.1 this).2.2 v (List.mem_of_getLast? e) c hc
      simpa [gtAfter] using this
  obtain ⟨s', _, hs', hev⟩ := hs.steps (steps.drop t') hgt (fun c hc => hq c (List.mem_of_mem_drop hc)) (by
    have := h; rw [hsplit] at this; exact this.right)
  rw [← afterSteps_append, ← hsplit] at hs'
  have hle : Below (lastStepClock none (steps.take t')) d.version := by
    rcases hd.version with hv | hv
    · obtain ⟨x, hx, e⟩ := List.mem_map.1 hv
      obtain ⟨y, hy, _⟩ := (hs.hist d.id).mem (v := x.1) (d := x.2) hx
      rw [← e]
      exact hs.vers _ (x.1, y) hy
    · obtain ⟨⟨w, o'⟩, hx, e⟩ := List.mem_map.1 hv
      obtain ⟨_, x, h1, _, h3⟩ := (getOptions_keys (db := db) (some w)).1 (List.mem_map_of_mem (committedOptionsOf_mem.1 hx))
      obtain ⟨u, hu1, hu2⟩ := hs0.optVers x h1 w h3
      simp only at e
      rw [← e]
      have e2 : steps.take t' = steps.take t ++ (steps.take t').drop t := by
        conv_lhs => rw [← List.take_append_drop t (steps.take t')]
        rw [List.take_take, Nat.min_eq_left hd.order]
      rw [e2] at hpre ⊢
      exact lastStepClock_below hpre ⟨u, hu1, hu2⟩
  have hvers : AddsIn (fun v => gtAfter (lastStepClock none (steps.take t')) v = true) (s d.id).committed (s' d.id).committed :=
    ⟨fun x hx => (hev.suffix d.id).subset hx, hev.new d.id⟩
  obtain ⟨b, hb1, hb2⟩ := (hs.hist d.id).symm.asOf hd.data
  have hb3 := (hvers.asOf (fun t ht => hle.lt ht)).1 hb1
  obtain ⟨b', hb4, hb5⟩ := (hs'.hist d.id).asOf hb3
  refine ⟨b', hb4, hb5.trans hb2, ?_⟩
  have e : effectiveOptions (histOf ((afterSteps U db steps).data db) d.id) (committedOptionsOf db (afterSteps U db (steps.take t))) =
      effectiveOptions (histOf ((afterSteps U db (steps.take t')).data db) d.id) (committedOptionsOf db (afterSteps U db (steps.take t))) := by
    rw [effectiveOptions_versions _ (hs'.hist d.id).fst, effectiveOptions_versions _ (hs.hist d.id).fst]
    refine effectiveOptions_hist _ ?_ hvers (fun x hx v hv => (hs.vers _ x hx).lt hv)
    obtain ⟨w, hw, _⟩ := hb1
    exact List.ne_nil_of_mem hw
  rw [e]
  exact hd.options

/-! ## Syncs -/

theorem CanHold.ops {es : ES P} (h : CanHold X maxDocs db states es) {t : Nat} {records : List MongoRecord} {after : Option Int} {arc arc' : Nat × Nat}
    {ops : List (BulkOp P)} (hr : ∀ r ∈ records, ∃ t', t ≤ t' ∧ r ∈ (states t').data db ∧ r.version.isSome)
    (hg : generateOps X maxDocs (committedOptionsOf db (states t)) after arc records = .ok (ops, arc')) :
    ∀ (done : List (BulkOp P)), (∀ op ∈ done, op ∈ ops) → CanHold X maxDocs db states (es.applyOps done) := by
  intro done
  induction done generalizing es with
  | nil => exact fun _ => h
  | cons op done ih =>
    intro ho
    exact ih (h.write hr hg (ho op List.mem_cons_self)) (fun op' h' => ho op' (List.mem_cons_of_mem _ h'))

theorem CanHold.deleteArcs {es : ES P} (h : CanHold X maxDocs db states es) : CanHold X maxDocs db states es.deleteArcs :=
  h.lost fun d hd => by
    obtain ⟨x, hx, y, hy, e⟩ := mem_all_iff.1 hd
    exact mem_all_iff.2 ⟨x, (List.mem_filter.1 hx).1, y, hy, e⟩

theorem syncScope_committed {resync : Bool} {m : Mongo} {es : ES P} {sel : MongoRecord → Bool} {last : Option Int}
    (h : syncScope db resync m es = .ok (some (sel, last))) {r : MongoRecord} (hr : sel r = true) : r.version.isSome := by
  unfold syncScope at h
  dsimp only at h
  split at h
  · cases h; exact hr
  · split at h
    · cases h
    · split at h
      · cases h
      · split at h
        · cases h; exact hr
        · cases h
          unfold newerThan at hr
          split at hr
          · cases hr
          · rename_i e; rw [e]; rfl

end Splitgill
