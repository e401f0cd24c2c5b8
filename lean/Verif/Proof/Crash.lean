import Verif.Proof.Life
import Verif.Proof.World4
import Verif.Spec.Crash
/-!
# Lemmas: databases whose calls may be stopped half way
-/

namespace Splitgill

variable {K : PyStr → DataClass}

theorem commitCollCrash_congr {v : Int} {f g : PyStr → Bool} {c : Coll} (h : ∀ d ∈ c, f d.id = g d.id) :
    commitCollCrash v f c = commitCollCrash v g c := by
  unfold commitCollCrash
  refine List.map_congr_left (fun d hd => ?_)
  rw [h d hd]

theorem Part.crash {v : Int} : ∀ {c c' : Coll}, Part [v] c c' → (ids c).Nodup → ∃ done, c' = commitCollCrash v done c
  | _, _, .nil, _ => ⟨fun _ => false, rfl⟩
  | _, _, .cons (a := d) (b := d') (l₁ := c) (l₂ := c') h hr, hn => by
    simp only [ids, List.map_cons, List.nodup_cons] at hn
    obtain ⟨done, hd⟩ := Part.crash hr hn.2
    have key : ∀ b, commitCollCrash v (fun id => if id = d.id then b else done id) c = c' := by
      intro b
      rw [hd]
      refine commitCollCrash_congr (fun x hx => if_neg (fun e => hn.1 ?_))
      rw [← e]; exact List.mem_map_of_mem hx
    rcases h with rfl | ⟨h1, rfl⟩ | ⟨h1, w, h2, rfl⟩
    · refine ⟨fun id => if id = d'.id then false else done id, ?_⟩
      have := key false
      simp only [commitCollCrash, List.map_cons] at this ⊢
      rw [this]; simp
    · refine ⟨fun id => if id = d'.id then false else done id, ?_⟩
      have := key false
      simp only [commitCollCrash, List.map_cons] at this ⊢
      rw [this]; simp
    · refine ⟨fun id => if id = d.id then true else done id, ?_⟩
      have := key true
      simp only [List.mem_singleton] at h2
      subst h2
      simp only [commitCollCrash, List.map_cons] at this ⊢
      rw [this]; simp [h1]

theorem OptPart.filter {v w : Int} (h : w ≠ v) {os os' : List OptDoc} (hp : OptPart [v] os os') :
    os'.filter (fun d => decide (d.version = some w)) = os.filter (fun d => decide (d.version = some w)) := by
  induction hp with
  | nil => rfl
  | @cons d d' os os' hd _ ih =>
    rw [List.filter_cons, List.filter_cons, ih]
    rcases hd with rfl | ⟨_, rfl⟩ | ⟨h1, x, h2, rfl⟩
    · rfl
    · rfl
    · simp only [List.mem_singleton] at h2
      subst h2
      have : ¬ some x = some w := by simpa using fun e => h e.symm
      simp [h1, this]

theorem OptPart.name {v : Int} {os os' : List OptDoc} (hp : OptPart [v] os os') {db : PyStr} (h : OnlyOptions db os) : OnlyOptions db os' := by
  induction hp with
  | nil => exact h
  | @cons d d' os os' hd _ ih =>
    intro x hx
    rcases List.mem_cons.1 hx with rfl | hx
    · have := h d (by simp)
      rcases hd with rfl | ⟨_, rfl⟩ | ⟨h1, y, h2, rfl⟩ <;> exact this
    · exact ih (fun y hy => h y (by simp [hy])) x hx

theorem OptPart.version {v : Int} {os os' : List OptDoc} (hp : OptPart [v] os os') {d : OptDoc} (hd : d ∈ os') {w : Int}
    (hw : d.version = some w) : w = v ∨ d ∈ os := by
  induction hp with
  | nil => cases hd
  | @cons x x' os os' hx _ ih =>
    rcases List.mem_cons.1 hd with rfl | hd
    · rcases hx with rfl | ⟨_, rfl⟩ | ⟨h1, y, h2, rfl⟩
      · exact .inr (by simp)
      · exact .inr (by simp)
      · simp only [List.mem_singleton] at h2
        subst h2
        exact .inl (by simpa using hw.symm)
    · exact (ih hd).imp id (fun h => by simp [h])

theorem commitRun_locked {db : PyStr} {m : Mongo} (h : m.locks = [db]) (cs : List (Int × Nat)) :
    ∃ pc, commitRun db (m, .acquire) cs = (m, pc) ∧ pc.inside = false := by
  cases cs with
  | nil => exact ⟨_, rfl, rfl⟩
  | cons c cs =>
    refine ⟨.locked, ?_, rfl⟩
    have h1 : commitRun db (m, .acquire) (c :: cs) = commitRun db (m, .locked) cs := by
      have : commitStep db c.1 c.2 m .acquire = (m, .locked) := by simp [commitStep, acquire, h]
      simp only [commitRun, List.foldl_cons, this]
    rw [h1]
    clear h1
    induction cs with
    | nil => rfl
    | cons c cs ih => exact ih

/-- A commit that is stopped. -/
theorem LifeInv.commitStops {U : Unicode} {db : PyStr} {m : Mongo} {s : Store} {hi : Option Int} (h : LifeInv K db m s hi)
    {c : Int} (hc : gtAfter hi c = true) (picks : List Nat) (died : Bool) :
    ∃ s', (Step.commitStops c picks died).Spec U db m s s' ∧ LifeInv K db ((Step.commitStops c picks died).run U db m) s' (some c) ∧
      Evolves hi m ((Step.commitStops c picks died).run U db m) s s' := by
  have hle : ∀ v, Below hi v → Below (some c) v := fun v hb => ⟨c, rfl, Int.le_of_lt (hb.lt hc)⟩
  rcases h.locks with hfree | hlocked
  swap
  · obtain ⟨pc, h1, h2⟩ := commitRun_locked hlocked (picks.map (fun k => (c, k)))
    refine ⟨s, ⟨fun _ _ => rfl, fun _ => .inl rfl⟩, ?_⟩
    simp only [Step.run, h1, h2, Bool.and_false, Bool.false_eq_true, if_false]
    exact ⟨h.mono hle, Evolves.refl _ _ _⟩
  have hnl : db ∉ m.locks := by rw [hfree]; simp
  have hmid := Mid.run hnl (picks.map (fun k => (c, k))) (Mid.start db [c] m) (by simp)
  have hrun : (Step.commitStops c picks died).run U db m =
      if !died && (commitRun db (m, .acquire) (picks.map (fun k => (c, k)))).2.inside
        then release db (commitRun db (m, .acquire) (picks.map (fun k => (c, k)))).1
        else (commitRun db (m, .acquire) (picks.map (fun k => (c, k)))).1 := rfl
  rw [hrun]
  generalize commitRun db (m, .acquire) (picks.map (fun k => (c, k))) = st at hmid
  obtain ⟨m', pc⟩ := st
  obtain ⟨h1, _, h3, h4, _⟩ := hmid
  dsimp only at h1 h3 h4 ⊢
  have hdata : (if (!died && pc.inside) = true then release db m' else m').data = m'.data := by split <;> rfl
  have hopts : (if (!died && pc.inside) = true then release db m' else m').options = m'.options := by split <;> rfl
  have hlocks : (if (!died && pc.inside) = true then release db m' else m').locks = [] ∨
      (if (!died && pc.inside) = true then release db m' else m').locks = [db] := by
    rw [hfree] at h4
    split
    · left
      rename_i hh
      simp only [Bool.and_eq_true] at hh
      rw [if_pos hh.2] at h4
      simp [release, h4]
    · rw [h4]; split <;> simp
  generalize (if (!died && pc.inside) = true then release db m' else m') = mm at hdata hopts hlocks
  obtain ⟨done, hdone⟩ := h1.crash h.rep.nodup
  have hsp : ∀ id, (if done id then (s id).commit c else s id) = s id ∨ ∃ d, (s id).pending = some d ∧
      (if done id then (s id).commit c else s id) = ⟨(c, d) :: (s id).committed, none⟩ := by
    intro id
    split
    · cases hpd : (s id).pending with
      | none => left; simp [Hist.commit, hpd]
      | some d => right; exact ⟨d, rfl, by simp [Hist.commit, hpd]⟩
    · exact .inl rfl
  refine ⟨fun id => if done id then (s id).commit c else s id, ⟨?_, ?_⟩, ⟨?_, ?_, ?_, hlocks, ?_, ?_⟩,
    ⟨?_, ?_, ?_, fun _ _ v _ => below_or hi v⟩⟩
  · intro hl; simp [isLocked, hfree] at hl
  · intro id
    dsimp only
    split
    · exact .inr rfl
    · exact .inl rfl
  · rw [hdata, hdone]
    exact commitCollCrash_spec h.rep done (fun id vd hvd => (h.vers id vd hvd).lt hc)
  · intro id
    split
    · exact (h.first id).commit c
    · exact h.first id
  · intro id vd hvd
    rcases hsp id with e | ⟨d, _, e⟩ <;> rw [e] at hvd
    · exact hle _ (h.vers id vd hvd)
    · rcases List.mem_cons.1 hvd with rfl | hvd
      · exact ⟨c, rfl, Int.le_refl _⟩
      · exact hle _ (h.vers id vd hvd)
  · rw [hopts]
    rcases h3 with h3 | ⟨_, h3⟩
    · exact h3.name h.only
    · exact h3.name (by intro d hd; rw [List.mem_singleton] at hd; subst hd; rfl)
  · intro d hd v hv
    rw [hopts] at hd
    rcases h3 with h3 | ⟨_, h3⟩
    · rcases h3.version hd hv with rfl | hd
      · exact ⟨v, rfl, Int.le_refl _⟩
      · exact hle _ (h.optVers d hd v hv)
    · rcases h3.version hd hv with rfl | hd
      · exact ⟨v, rfl, Int.le_refl _⟩
      · rw [List.mem_singleton] at hd; subst hd; cases hv
  · intro id
    rcases hsp id with e | ⟨d, _, e⟩ <;> rw [e]
    · exact List.suffix_refl _
    · exact List.suffix_cons _ _
  · intro id vd hvd
    rcases hsp id with e | ⟨d, _, e⟩ <;> rw [e] at hvd
    · exact .inl hvd
    · rcases List.mem_cons.1 hvd with rfl | hvd
      · exact .inr hc
      · exact .inl hvd
  · intro v hv
    rw [hopts]
    have hne : v ≠ c := by have := hv.lt hc; omega
    rcases h3 with h3 | ⟨h0, h3⟩
    · exact h3.filter hne
    · rw [h3.filter hne, h0]; rfl

/-- A step. -/
theorem LifeInv.step {U : Unicode} {db : PyStr} {m : Mongo} {s : Store} {hi : Option Int} (h : LifeInv K db m s hi)
    (st : Step) (hc : ∀ c, st.clock? = some c → gtAfter hi c = true) (hq : Fits K U st.stream) (hs : NoSpan 200 st.stream) :
    ∃ s', st.Spec U db m s s' ∧ LifeInv K db (st.run U db m) s' (st.clock?.or hi) ∧ Evolves hi m (st.run U db m) s s' := by
  cases st with
  | call c =>
    obtain ⟨ret, h1, h2, h3, _⟩ := h.call c hc hq hs
    refine ⟨c.effect U ret s, ?_, h2, h3⟩
    rcases h1 with h1 | ⟨h1, rfl, _⟩ <;> simp only [Step.Spec, h1] <;> exact fun _ => trivial
  | ingestStops mf rs n =>
    obtain ⟨c, s', h1, h2, h3, h4⟩ := h.event (U := U) (.ingestCrash mf rs n) rfl hq hs
    have h1 : ingestCrash U mf (m.data db) rs n = .ok c := h1
    refine ⟨s', h2, ?_⟩
    simp only [Step.run, h1]
    exact ⟨h3, h4⟩
  | rollbackStops n =>
    obtain ⟨c, s', h1, h2, h3, h4⟩ := h.event (U := U) (.rollbackCrash n) rfl (by intro r hr; cases hr) hs
    have h1 : rollbackCrash (m.data db) n = .ok c := h1
    refine ⟨s', h2, ?_⟩
    simp only [Step.run, h1]
    exact ⟨h3, h4⟩
  | optionsStop deleted =>
    refine ⟨s, fun _ => rfl, h.options rfl rfl (fun d hd => h.only d (List.mem_filter.1 hd).1) (fun v => ?_)⟩
    simp only [Step.run, List.filter_filter]
    apply List.filter_congr
    intro d _
    cases hv : d.version <;> simp
  | commitStops clock picks died => exact h.commitStops (hc clock rfl) picks died
  | release =>
    refine ⟨s, fun _ => rfl, ⟨h.rep, h.first, h.vers, ?_, h.only, h.optVers⟩,
      ⟨fun _ => List.suffix_refl _, fun _ _ h => .inl h, fun _ _ => rfl, fun _ _ v _ => below_or hi v⟩⟩
    simp only [Step.run, release]
    rcases h.locks with e | e <;> rw [e] <;> simp

/-- The last clock value. -/
def lastStepClock (hi : Option Int) (steps : List Step) : Option Int := steps.foldl (fun hi c => c.clock?.or hi) hi

theorem LifeInv.steps {U : Unicode} {db : PyStr} : ∀ (steps : List Step) {m : Mongo} {s : Store} {hi : Option Int},
    LifeInv K db m s hi → (∀ c ∈ steps.filterMap Step.clock?, gtAfter hi c = true) →
    (∀ c ∈ steps, Fits K U c.stream) → OrderlySteps steps →
    ∃ s', StepsSpec U db m s steps s' ∧ LifeInv K db (runSteps U db m steps) s' (lastStepClock hi steps) ∧
      Evolves hi m (runSteps U db m steps) s s'
  | [], m, s, hi, h, _, _, _ => ⟨s, fun _ => rfl, h, Evolves.refl _ _ _⟩
  | st :: steps, m, s, hi, h, hc, hq, ho => by
    have hcl : ∀ c, st.clock? = some c → gtAfter hi c = true := fun c he => hc c (by simp [List.filterMap_cons, he])
    obtain ⟨s1, hsp, h1, h2⟩ := h.step (U := U) st hcl (hq st (by simp)) (ho.noSpan st (by simp))
    have ho' : OrderlySteps steps := by
      refine ⟨?_, fun c h => ho.noSpan c (by simp [h])⟩
      have := ho.clock
      rw [List.filterMap_cons] at this
      cases hk : st.clock? with
      | none => rwa [hk] at this
      | some v => rw [hk] at this; exact (List.pairwise_cons.1 this).2
    have hgt : ∀ c ∈ steps.filterMap Step.clock?, gtAfter (st.clock?.or hi) c = true := by
      intro c hcm
      cases hk : st.clock? with
      | none => exact hc c (by simp [List.filterMap_cons, hk, hcm])
      | some v =>
        have := ho.clock
        rw [List.filterMap_cons, hk] at this
        have := (List.pairwise_cons.1 this).1 c hcm
        simp [gtAfter, this]
    obtain ⟨s2, hsp2, h3, h4⟩ := LifeInv.steps steps h1 hgt (fun c h => hq c (by simp [h])) ho'
    refine ⟨s2, ⟨s1, hsp, hsp2⟩, h3, h2.trans ?_ h4⟩
    intro v hb
    cases hk : st.clock? with
    | none => exact hb
    | some c => exact ⟨c, rfl, Int.le_of_lt (hb.lt (hcl c hk))⟩

theorem lastStepClock_eq : ∀ (steps : List Step) (hi : Option Int),
    lastStepClock hi steps = (steps.filterMap Step.clock?).getLast?.or hi
  | [], hi => rfl
  | c :: steps, hi => by
    have h : lastStepClock hi (c :: steps) = lastStepClock (c.clock?.or hi) steps := rfl
    rw [h, lastStepClock_eq steps, List.filterMap_cons]
    cases hc : c.clock? with
    | none => rfl
    | some x =>
      rw [List.getLast?_cons]
      cases (steps.filterMap Step.clock?).getLast? <;> simp

theorem OrderlySteps.left {a b : List Step} (h : OrderlySteps (a ++ b)) : OrderlySteps a :=
  ⟨by have := h.clock; rw [List.filterMap_append] at this; exact (List.pairwise_append.1 this).1,
   fun e he => h.noSpan e (List.mem_append_left _ he)⟩

theorem OrderlySteps.right {a b : List Step} (h : OrderlySteps (a ++ b)) : OrderlySteps b :=
  ⟨by have := h.clock; rw [List.filterMap_append] at this; exact (List.pairwise_append.1 this).2.1,
   fun e he => h.noSpan e (List.mem_append_right _ he)⟩

theorem afterSteps_append (U : Unicode) (db : PyStr) (a b : List Step) :
    afterSteps U db (a ++ b) = runSteps U db (afterSteps U db a) b := by
  simp only [afterSteps, runSteps, List.foldl_append]

theorem StepsSpec.append {U : Unicode} {db : PyStr} : ∀ {a : List Step} {m : Mongo} {s s' s'' : Store} {b : List Step},
    StepsSpec U db m s a s' → StepsSpec U db (runSteps U db m a) s' b s'' → StepsSpec U db m s (a ++ b) s''
  | [], m, s, s', s'', b, h, h' => by
    have : s' = s := funext h
    subst this; exact h'
  | st :: a, m, s, s', s'', b, ⟨s1, h1, h2⟩, h' => ⟨s1, h1, StepsSpec.append h2 h'⟩

/-- After any steps. -/
theorem crash_life {U : Unicode} {db : PyStr} {steps : List Step} (hq : ∀ c ∈ steps, Fits K U c.stream) (h : OrderlySteps steps) :
    ∃ s, PossibleHistories U db steps s ∧ LifeInv K db (afterSteps U db steps) s (lastStepClock none steps) := by
  obtain ⟨s, h1, h2, _⟩ := LifeInv.steps (U := U) steps (LifeInv.empty db) (fun _ _ => rfl) hq h
  exact ⟨s, h1, h2⟩

theorem committed_options_of {db : PyStr} {m : Mongo} (h : committedOptionsOf db m ≠ []) : ∃ d ∈ m.options, d.version ≠ none := by
  obtain ⟨⟨v, o⟩, hm⟩ := List.exists_mem_of_ne_nil _ h
  obtain ⟨_, d, h1, _, h3⟩ := (getOptions_keys (db := db) (m := m) (some v)).1 (List.mem_map_of_mem (committedOptionsOf_mem.1 hm))
  exact ⟨d, h1, by rw [h3]; simp⟩

/-- The database before and after steps. -/
theorem crash_later {P : Type} {X : Parser P} (hX : X.RespectsFor K) {U : Unicode} {db : PyStr} {a b : List Step}
    (hq : ∀ c ∈ a ++ b, Fits K U c.stream) (h : OrderlySteps (a ++ b)) (hv : committedOptionsOf db (afterSteps U db a) ≠ []) :
    ∃ t, (a.filterMap Step.clock?).getLast? = some t ∧
      Later X db t (afterSteps U db a) (afterSteps U db (a ++ b)) := by
  obtain ⟨s, _, hs⟩ := crash_life (K := K) (U := U) (db := db) (fun c hc => hq c (List.mem_append_left _ hc)) h.left
  obtain ⟨d, hd, hdv⟩ := committed_options_of hv
  obtain ⟨v, hv'⟩ := Option.ne_none_iff_exists'.1 hdv
  obtain ⟨t, ht, _⟩ := hs.optVers d hd v hv'
  have htl : (a.filterMap Step.clock?).getLast? = some t := by rw [lastStepClock_eq, Option.or_none] at ht; exact ht
  have hlt : ∀ c ∈ b.filterMap Step.clock?, t < c := by
    intro c hc
    have := h.clock
    rw [List.filterMap_append, List.pairwise_append] at this
    exact this.2.2 t (List.mem_of_getLast? htl) c hc
  rw [ht] at hs
  obtain ⟨s', _, h1, h2⟩ := LifeInv.steps (U := U) b hs (fun c hc => by simpa [gtAfter] using hlt c hc)
    (fun c hc => hq c (List.mem_append_right _ hc)) h.right
  rw [← afterSteps_append] at h1 h2
  exact ⟨t, htl, h2.later hX hs h1⟩

theorem crash_dbOk {U : Unicode} {db : PyStr} {steps : List Step} (h : OrderlySteps steps)
    (hv : committedOptionsOf db (afterSteps U db steps) ≠ []) : DbOk db (afterSteps U db steps) := by
  obtain ⟨s, _, hs⟩ := crash_life (K := fun _ => plainClass) (U := U) (db := db) (fun c _ => fits_plain U c.stream) h
  exact hs.dbOk (committed_options_of hv)

theorem Later.options_ne {P : Type} {X : Parser P} {db : PyStr} {m m' : Mongo} {t : Int} (h : Later X db t m m')
    (hm : committedOptionsOf db m ≠ []) : committedOptionsOf db m' ≠ [] := by
  obtain ⟨⟨v, o⟩, hmem⟩ := List.exists_mem_of_ne_nil _ hm
  exact List.ne_nil_of_mem ((h.opts v o).1 hmem).1

theorem crash_timeline {P : Type} {X : Parser P} (hX : X.RespectsFor K) {U : Unicode} {db : PyStr} {extra : Int → Mongo → Prop} :
    ∀ (parts : List (List Step)) (first : List Step), (∀ c ∈ first ++ parts.flatten, Fits K U c.stream) →
      OrderlySteps (first ++ parts.flatten) →
      committedOptionsOf db (afterSteps U db first) ≠ [] → EachStepPart extra U db first parts →
      Timeline X db extra (stepStates U db first parts)
  | [], first, _, ho, hv, _ => by
    rw [List.flatten_nil, List.append_nil] at ho
    exact crash_dbOk ho hv
  | part :: parts, first, hq, ho, hv, he => by
    rw [List.flatten_cons, ← List.append_assoc] at ho hq
    have ok := crash_dbOk ho.left.left hv
    obtain ⟨t, ht, hl⟩ := crash_later hX (fun c hc => hq c (List.mem_append_left _ hc)) ho.left hv
    have ih := crash_timeline hX parts (first ++ part) hq ho (hl.options_ne hv) he.2
    have : stepStates U db (first ++ part) parts = afterSteps U db (first ++ part) :: (stepStates U db (first ++ part) parts).tail := by
      cases parts <;> rfl
    rw [this] at ih
    rw [stepStates, this]
    exact ⟨ok, ⟨t, hl, he.1 t ht⟩, ih⟩

theorem stepStates_getLast (U : Unicode) (db : PyStr) : ∀ (parts : List (List Step)) (first : List Step),
    ∃ ms, stepStates U db first parts = ms ++ [afterSteps U db (first ++ parts.flatten)]
  | [], first => ⟨[], by simp [stepStates]⟩
  | part :: parts, first => by
    obtain ⟨ms, h⟩ := stepStates_getLast U db parts (first ++ part)
    refine ⟨afterSteps U db first :: ms, ?_⟩
    rw [stepStates, h, List.flatten_cons, List.append_assoc]; rfl

end Splitgill
