import Verif.Spec.Visible
import Verif.Proof.Bulk3
import Verif.Proof.BulkOps
import Verif.Proof.Schedule
/-!
# What searches see while `write_ops` writes
-/

namespace Splitgill
variable {P : Type}

theorem isDeleteOp_eq : (isDeleteOp : BulkOp P → Bool) = BulkOp.isDelete := funext fun op => by cases op <;> rfl

/-! ## Refreshing -/

theorem aget_refreshIndex (stored visible : ES P) (ix ix' : Ix) :
    aget ix' (refreshIndex stored visible ix) = if ix' = ix ∧ (aget ix stored).isSome then aget ix stored else aget ix' visible := by
  unfold refreshIndex
  cases h : aget ix stored with
  | none => simp
  | some d => simp [aget_aset]

/-- After a refresh an index is seen as it is stored, or as before if it is not refreshed or does not exist. -/
theorem aget_refresh (stored : ES P) (ix : Ix) : ∀ (ixs : List Ix) (visible : ES P),
    aget ix (ixs.foldl (refreshIndex stored) visible) = if ix ∈ ixs ∧ (aget ix stored).isSome then aget ix stored else aget ix visible
  | [], visible => by simp
  | i :: ixs, visible => by
    rw [List.foldl_cons, aget_refresh stored ix ixs, aget_refreshIndex]
    by_cases h : (aget ix stored).isSome = true
    · by_cases h1 : ix ∈ ixs
      · simp [h1, h]
      · by_cases h2 : ix = i
        · subst h2; simp [h]
        · simp [h1, h2]
    · by_cases h2 : ix = i
      · subst h2; simp [h]
      · simp [h, h2]

/-- Ops of other indices leave an index as it is. -/
theorem aget_applyOps_other (ix : Ix) : ∀ (ops : List (BulkOp P)) (es : ES P), (∀ op ∈ ops, op.ix ≠ ix) → aget ix (es.applyOps ops) = aget ix es
  | [], _, _ => rfl
  | op :: ops, es, h => by
    have h1 := h op (List.mem_cons_self ..)
    have : aget ix (BulkOp.apply es op) = aget ix es := by
      cases op with
      | index i d x => simp only [BulkOp.apply, aget_aset, if_neg (fun e : ix = i => h1 e.symm)]
      | delete i d => simp only [BulkOp.apply, aget_aset, if_neg (fun e : ix = i => h1 e.symm)]
    refine (aget_applyOps_other ix ops (BulkOp.apply es op) (fun o ho => h o (List.mem_cons_of_mem _ ho))).trans this

theorem aget_applyOps_some (ix : Ix) : ∀ (ops : List (BulkOp P)) (es : ES P), (aget ix es).isSome = true →
    (aget ix (es.applyOps ops)).isSome = true
  | [], _, h => h
  | op :: ops, es, h => by
    refine aget_applyOps_some ix ops (BulkOp.apply es op) ?_
    cases op with
    | index i d x => simp only [BulkOp.apply, aget_aset]; split <;> simp [h]
    | delete i d => simp only [BulkOp.apply, aget_aset]; split <;> simp [h]

/-! ## The invariant -/

def MainState.hasReturned {α : Type} : MainState α → Bool
  | .returned _ _ => true
  | _ => false

def MainState.isAfter {α : Type} : MainState α → Bool
  | .returned _ _ => true
  | .refreshing _ _ _ => true
  | _ => false

structure VisInv (c0 : Indices P) (s : VisState P) : Prop where
  stored : s.cluster.stored = c0.stored.applyOps s.bulk.written
  queue : ∀ c, some c ∈ s.bulk.queue → ∀ op ∈ c.2, op.ix ∈ s.setUp
  workers : ∀ w ∈ s.bulk.workers, ∀ c ∈ w.held, ∀ op ∈ c.2, op.ix ∈ s.setUp
  log : ∀ op ∈ s.bulk.written, op.ix ∈ s.setUp
  sane : ∀ ix, aget ix s.cluster.stored = none → aget ix s.cluster.visible = none
  paused : s.restored = false → ∀ ix, ix ∈ s.cluster.paused ↔ ix ∈ c0.paused ∨ ix ∈ s.setUp
  restored : s.restored = true → s.bulk.main.hasReturned = true ∧ (∀ ix ∈ s.cluster.paused, ix ∈ c0.paused ∧ ix ∉ s.setUp) ∧
    (s.setUp ≠ [] → ∀ ix ∈ c0.paused, ix ∉ s.setUp → ix ∈ s.cluster.paused)
  after : s.bulk.main.isAfter = true → s.bulk.refreshed = true
  late : s.bulk.refreshed = true → ∀ w ∈ s.bulk.workers, ∃ i d, w = .done i d
  shown : ∀ ix, aget ix s.cluster.visible = aget ix c0.visible ∨ (ix ∉ c0.paused ∧ aget ix s.cluster.visible = aget ix c0.stored) ∨
    (s.bulk.refreshed = true ∧ aget ix s.cluster.visible = aget ix s.cluster.stored)
  done : s.bulk.main.hasReturned = true → ∀ ix, ix ∈ s.setUp ∨ s.setUp = [] → aget ix s.cluster.visible = aget ix s.cluster.stored

theorem gatherResults_done {α : Type} : ∀ {ws : List (WorkerState α)} {x}, gatherResults ws = some x → ∀ w ∈ ws, ∃ i d, w = .done i d
  | [], _, _, w, hw => nomatch hw
  | v :: ws, x, h, w, hw => by
    rw [gatherResults] at h
    cases hv : v.result? with
    | none => rw [hv] at h; cases h
    | some y =>
      cases hg : gatherResults ws with
      | none => rw [hv, hg] at h; cases h
      | some z =>
        rcases List.mem_cons.1 hw with rfl | hw
        · cases w <;> simp [WorkerState.result?] at hv
          exact ⟨_, _, rfl⟩
        · exact gatherResults_done hg w hw

/-- What a step of the tasks leaves as it is, or changes. -/
theorem bulkStep_parts {isDelete : BulkOp P → Bool} {cap : Nat} {b b' : BulkState (BulkOp P)} {a : BulkAction}
    (h : bulkStep isDelete cap b a = some b') (ha : ∀ ok, a ≠ .refreshed ok) :
    (∀ c, some c ∈ b'.queue → some c ∈ b.queue ∨ ∃ rest, b.main = .feeding (c :: rest) ∧ a = .main) ∧
    (∀ w ∈ b'.workers, ∀ c ∈ w.held, some c ∈ b.queue ∨ ∃ w ∈ b.workers, c ∈ w.held) ∧
    (∃ l, b'.log = b.log ++ l ∧ ∀ x ∈ l, ∃ w ∈ b.workers, x.1 ∈ w.held) ∧
    (b'.main.hasReturned = true → b.main.hasReturned = true ∧ b'.main = b.main) ∧
    (b.main.hasReturned = true → b'.main = b.main) ∧
    (b'.main.isAfter = true → b'.refreshed = true ∨ (b.main.isAfter = true ∧ b'.refreshed = b.refreshed)) ∧
    (b'.refreshed = true → (b.refreshed = true ∧ b'.workers = b.workers) ∨ (∀ w ∈ b'.workers, ∃ i d, w = .done i d) ∨
      (b.refreshed = true ∧ ∃ w ∈ b.workers, ¬ ∃ i d, w = .done i d)) ∧
    (b.refreshed = true → b'.refreshed = true) := by
  cases a with
  | main =>
    rw [bulkStep, mainStep] at h
    split at h
    · cases h; next e => simp [e, MainState.hasReturned, MainState.isAfter]; tauto
    · next c rest e =>
      split at h
      · cases h
      · dsimp only at h
        split at h <;> cases h <;> simp [e, MainState.hasReturned, MainState.isAfter] <;> tauto
    · cases h; next e => simp [e, MainState.hasReturned, MainState.isAfter]; tauto
    · next n e =>
      split at h
      · cases h
      · cases h; simp [e, MainState.hasReturned, MainState.isAfter]; tauto
    · next e =>
      split at h
      · split at h <;> cases h <;> simp [e, MainState.hasReturned, MainState.isAfter] <;> tauto
      · cases h
    · next e =>
      split at h
      · next g => cases h; have := gatherResults_done g; simp [e, MainState.hasReturned, MainState.isAfter]; tauto
      · cases h
    · cases h
    · cases h
    · cases h
  | mainRaises =>
    rw [bulkStep] at h
    split at h
    · cases h; next e => simp [e, MainState.hasReturned, MainState.isAfter]; tauto
    · cases h
  | get w =>
    rw [bulkStep] at h
    split at h
    · next i d c q e1 e2 =>
      cases h
      have hw := List.mem_of_getElem? e1
      refine ⟨fun x hx => .inl (by rw [e2]; exact List.mem_cons_of_mem _ hx), fun v hv x hx => ?_, ⟨[], by simp, fun _ h => nomatch h⟩,
        fun h => ⟨h, rfl⟩, fun _ => rfl, fun h => .inr ⟨h, rfl⟩, fun h => .inr (.inr ⟨h, _, hw, by simp⟩), id⟩
      rcases List.mem_or_eq_of_mem_set hv with hv | rfl
      · exact .inr ⟨v, hv, hx⟩
      · rw [WorkerState.held, List.mem_singleton] at hx
        subst hx
        exact .inl (by rw [e2]; exact List.mem_cons_self ..)
    · next i d q e1 e2 =>
      cases h
      have hw := List.mem_of_getElem? e1
      refine ⟨fun x hx => .inl (by rw [e2]; exact List.mem_cons_of_mem _ hx), fun v hv x hx => ?_, ⟨[], by simp, fun _ h => nomatch h⟩,
        fun h => ⟨h, rfl⟩, fun _ => rfl, fun h => .inr ⟨h, rfl⟩, fun h => .inr (.inr ⟨h, _, hw, by simp⟩), id⟩
      rcases List.mem_or_eq_of_mem_set hv with hv | rfl
      · exact .inr ⟨v, hv, hx⟩
      · exact nomatch hx
    · cases h
  | response w r =>
    rw [bulkStep] at h
    split at h
    · next c n i d e1 =>
      have hw := List.mem_of_getElem? e1
      split at h
      · split at h
        next st td e =>
        cases h
        refine ⟨fun x hx => .inl hx, fun v hv x hx => ?_, ⟨_, rfl, fun x hx => ?_⟩,
          fun h => ⟨h, rfl⟩, fun _ => rfl, fun h => .inr ⟨h, rfl⟩, fun h => .inr (.inr ⟨h, _, hw, by simp⟩), id⟩
        · rcases List.mem_or_eq_of_mem_set hv with hv | rfl
          · exact .inr ⟨v, hv, hx⟩
          · have : x = c := by
              unfold workerResponse at e
              split at e
              · split at e <;> cases e
                · simpa [WorkerState.held] using hx
                · exact nomatch hx
              · split at e <;> cases e <;> simpa [WorkerState.held] using hx
              · cases e; simpa [WorkerState.held] using hx
            subst this
            exact .inr ⟨_, hw, by simp [WorkerState.held]⟩
        · rw [List.mem_singleton] at hx
          subst hx
          exact ⟨_, hw, by simp [WorkerState.held]⟩
      · cases h
    · cases h
  | refreshed ok => exact absurd rfl (ha ok)

theorem appliedOps_sub {x : NumChunk (BulkOp P) × BulkResp} {op : BulkOp P} (h : op ∈ appliedOps x) : op ∈ x.1.2 := by
  unfold appliedOps at h
  split at h <;>
  · obtain ⟨y, hy, rfl⟩ := List.mem_map.1 h
    exact (List.of_mem_zip (List.mem_filter.1 hy).1).1

theorem written_append (b : BulkState (BulkOp P)) (l) (b' : BulkState (BulkOp P)) (h : b'.log = b.log ++ l) :
    b'.written = b.written ++ l.flatMap appliedOps := by
  rw [BulkState.written, h, List.flatMap_append]
  rfl

theorem VisInv.step {c0 : Indices P} {s s' : VisState P} {cap : Nat} {a : VisAction} (hi : VisInv c0 s) (hn : a ≠ .others)
    (h : visStep cap s a = some s') : VisInv c0 s' := by
  cases a with
  | others => exact absurd rfl hn
  | task a =>
    rw [visStep] at h
    split at h
    next hready =>
      split at h
      · next b hb =>
        cases h
        have ha : ∀ ok, a ≠ .refreshed ok := by rintro ok rfl; exact absurd hready (by simp [VisState.ready])
        obtain ⟨p1, p2, ⟨l, p3, p4⟩, p5, p6, p7, p8, p9⟩ := bulkStep_parts hb ha
        have hl : ∀ op ∈ l.flatMap appliedOps, op.ix ∈ s.setUp := by
          intro op hop
          obtain ⟨x, hx, hop⟩ := List.mem_flatMap.1 hop
          obtain ⟨w, hw, hh⟩ := p4 x hx
          exact hi.workers w hw _ hh op (appliedOps_sub hop)
        have hd : b.log.drop s.bulk.log.length = l := by rw [p3]; simp
        have hst : s.cluster.stored.applyOps ((b.log.drop s.bulk.log.length).flatMap appliedOps) = c0.stored.applyOps b.written := by
          rw [hd, hi.stored, written_append _ l _ p3, applyOps_append]
        have hlate : b.refreshed = true → s.bulk.refreshed = true → l = [] := by
          intro _ h2
          cases l with
          | nil => rfl
          | cons x l =>
            obtain ⟨w, hw, hh⟩ := p4 x (List.mem_cons_self ..)
            obtain ⟨i, d, rfl⟩ := hi.late h2 w hw
            exact nomatch hh
        have hsame : s.bulk.refreshed = true → s.cluster.stored.applyOps ((b.log.drop s.bulk.log.length).flatMap appliedOps) = s.cluster.stored := by
          intro h2
          rw [hd, hlate (p9 h2) h2]
          rfl
        refine ⟨hst, ?_, ?_, ?_, ?_, hi.paused, ?_, ?_, ?_, ?_, ?_⟩
        · intro c hc
          rcases p1 c hc with h1 | ⟨rest, h1, rfl⟩
          · exact hi.queue c h1
          · intro op hop
            simp only [VisState.ready, h1, List.all_eq_true, decide_eq_true_eq] at hready
            exact hready op hop
        · intro w hw c hc
          rcases p2 w hw c hc with h1 | ⟨w', hw', h1⟩
          · exact hi.queue c h1
          · exact hi.workers w' hw' c h1
        · intro op hop
          rw [written_append _ l _ p3, List.mem_append] at hop
          exact hop.elim (hi.log op) (hl op)
        · intro ix h1
          refine hi.sane ix ?_
          cases e : aget ix s.cluster.stored with
          | none => rfl
          | some d =>
            have := aget_applyOps_some ix ((b.log.drop s.bulk.log.length).flatMap appliedOps) s.cluster.stored (by rw [e]; rfl)
            dsimp only at h1
            rw [h1] at this
            cases this
        · intro h1
          obtain ⟨g1, g2⟩ := hi.restored h1
          exact ⟨by rw [p6 g1]; exact g1, g2⟩
        · intro h1
          rcases p7 h1 with h2 | ⟨h2, h3⟩
          · exact h2
          · dsimp only; rw [h3]; exact hi.after h2
        · intro h1
          rcases p8 h1 with ⟨h2, h3⟩ | h2 | ⟨h2, w, hw, h3⟩
          · dsimp only; rw [h3]; exact hi.late h2
          · exact h2
          · exact absurd (hi.late h2 w hw) h3
        · intro ix
          rcases hi.shown ix with h1 | h1 | ⟨h1, h2⟩
          · exact .inl h1
          · exact .inr (.inl h1)
          · refine .inr (.inr ⟨p9 h1, ?_⟩)
            dsimp only
            rw [hsame h1]
            exact h2
        · intro h1 ix h2
          obtain ⟨g1, g2⟩ := p5 h1
          dsimp only
          rw [hsame (hi.after (by revert g1; cases s.bulk.main <;> simp [MainState.hasReturned, MainState.isAfter]))]
          exact hi.done g1 ix h2
      · cases h
    · cases h
  | setUp ix =>
    rw [visStep] at h
    split at h
    · next c rest e =>
      split at h
      · cases h
        refine ⟨hi.stored, fun c hc op ho => List.mem_cons_of_mem _ (hi.queue c hc op ho),
          fun w hw c hc op ho => List.mem_cons_of_mem _ (hi.workers w hw c hc op ho), fun op ho => List.mem_cons_of_mem _ (hi.log op ho),
          hi.sane, ?_, ?_, hi.after, hi.late, hi.shown, ?_⟩
        · intro h1 i
          simp only [List.mem_cons, hi.paused h1 i]
          tauto
        · intro h1
          have := (hi.restored h1).1
          rw [e] at this
          cases this
        · intro h1
          dsimp only at h1
          rw [e] at h1
          cases h1
      · cases h
    · cases h
  | restore =>
    rw [visStep] at h
    split at h
    · next i d e =>
      split at h
      · cases h
      · next hr =>
        cases h
        refine ⟨hi.stored, hi.queue, hi.workers, hi.log, hi.sane, nofun, fun _ => ⟨by simp [e, MainState.hasReturned], ?_, ?_⟩, hi.after, hi.late, hi.shown,
          hi.done⟩
        · intro ix hix
          dsimp only at hix
          split at hix
          · exact nomatch hix
          · rw [List.mem_filter, decide_eq_true_eq, hi.paused (by simpa using hr) ix] at hix
            exact ⟨hix.1.resolve_right hix.2, hix.2⟩
        · intro hne ix hix hix'
          dsimp only at hne hix' ⊢
          rw [if_neg (by simpa using hne), List.mem_filter, decide_eq_true_eq, hi.paused (by simpa using hr) ix]
          exact ⟨.inl hix, hix'⟩
    · cases h
  | auto i =>
    rw [visStep] at h
    split at h
    · cases h
    · next hp =>
      cases h
      have key : ∀ ix, aget ix (s.cluster.refresh [i]).visible =
          if ix ∈ [i] ∧ (aget ix s.cluster.stored).isSome then aget ix s.cluster.stored else aget ix s.cluster.visible :=
        fun ix => aget_refresh _ _ _ _
      refine ⟨hi.stored, hi.queue, hi.workers, hi.log, ?_, hi.paused, hi.restored, hi.after, hi.late, ?_, ?_⟩
      · intro ix h1
        dsimp only
        rw [key]
        change aget ix s.cluster.stored = none at h1
        simp [h1, hi.sane ix h1]
      · intro ix
        dsimp only
        rw [key]
        split
        · next h1 =>
          obtain ⟨h1, _⟩ := h1
          rw [List.mem_singleton] at h1
          subst h1
          cases hr : s.restored with
          | false =>
            rw [hi.paused hr, not_or] at hp
            refine .inr (.inl ⟨hp.1, ?_⟩)
            rw [hi.stored]
            exact aget_applyOps_other ix _ _ (fun op ho e => hp.2 (e ▸ hi.log op ho))
          | true =>
            refine .inr (.inr ⟨hi.after ?_, rfl⟩)
            have := (hi.restored hr).1
            revert this
            cases s.bulk.main <;> simp [MainState.hasReturned, MainState.isAfter]
        · exact hi.shown ix
      · intro h1 ix h2
        dsimp only
        rw [key]
        split
        · rfl
        · exact hi.done h1 ix h2
  | shows i =>
    rw [visStep] at h
    split at h
    · next hp =>
      cases h
      have key : ∀ ix, aget ix (s.cluster.refresh [i]).visible =
          if ix ∈ [i] ∧ (aget ix s.cluster.stored).isSome then aget ix s.cluster.stored else aget ix s.cluster.visible :=
        fun ix => aget_refresh _ _ _ _
      refine ⟨hi.stored, hi.queue, hi.workers, hi.log, ?_, hi.paused, hi.restored, hi.after, hi.late, ?_, ?_⟩
      · intro ix h1
        dsimp only
        rw [key]
        change aget ix s.cluster.stored = none at h1
        simp [h1, hi.sane ix h1]
      · intro ix
        dsimp only
        rw [key]
        split
        · exact .inr (.inr ⟨hp.1, rfl⟩)
        · exact hi.shown ix
      · intro h1 ix h2
        dsimp only
        rw [key]
        split
        · rfl
        · exact hi.done h1 ix h2
    · cases h
  | refresh ok =>
    rw [visStep] at h
    split at h
    · next b hb =>
      cases h
      rw [bulkStep] at hb
      split at hb
      · next n i d e =>
        have hr : s.bulk.refreshed = true := hi.after (by rw [e]; rfl)
        have hb' : b.queue = s.bulk.queue ∧ b.workers = s.bulk.workers ∧ b.log = s.bulk.log ∧ b.refreshed = s.bulk.refreshed ∧
            (b.main.hasReturned = true → ok = true) := by
          split at hb
          · next h1 => cases hb; exact ⟨rfl, rfl, rfl, rfl, fun _ => h1⟩
          · split at hb <;> cases hb <;> exact ⟨rfl, rfl, rfl, rfl, nofun⟩
        obtain ⟨b1, b2, b3, b4, b5⟩ := hb'
        have bw : b.written = s.bulk.written := by rw [BulkState.written, b3]; rfl
        have nr : s.restored = false := by
          cases hx : s.restored with
          | false => rfl
          | true => have := (hi.restored hx).1; rw [e] at this; cases this
        have key : ∀ ixs ix, aget ix (s.cluster.refresh ixs).visible =
            if ix ∈ ixs ∧ (aget ix s.cluster.stored).isSome then aget ix s.cluster.stored else aget ix s.cluster.visible :=
          fun ixs ix => aget_refresh _ _ _ _
        refine ⟨?_, ?_, ?_, ?_, ?_, hi.paused, ?_, ?_, ?_, ?_, ?_⟩
        · dsimp only; rw [bw]; exact hi.stored
        · dsimp only; rw [b1]; exact hi.queue
        · dsimp only; rw [b2]; exact hi.workers
        · dsimp only; rw [bw]; exact hi.log
        · intro ix h1
          dsimp only
          rw [key]
          change aget ix s.cluster.stored = none at h1
          simp [h1, hi.sane ix h1]
        · intro h1; dsimp only at h1; rw [nr] at h1; cases h1
        · intro _; dsimp only; rw [b4]; exact hr
        · intro _; dsimp only; rw [b2]; exact hi.late hr
        · intro ix
          dsimp only
          generalize (if ok = true then requested s.cluster.stored s.setUp else []) = ixs
          rw [key ixs ix]
          by_cases h0 : ix ∈ ixs ∧ (aget ix s.cluster.stored).isSome = true
          · rw [if_pos h0]
            exact .inr (.inr ⟨b4.trans hr, rfl⟩)
          · rw [if_neg h0]
            rcases hi.shown ix with h1 | h1 | h1
            · exact .inl h1
            · exact .inr (.inl h1)
            · exact .inr (.inr ⟨b4.trans hr, h1.2⟩)
        · intro h1 ix h2
          have hok := b5 h1
          subst hok
          dsimp only at h2 ⊢
          rw [if_pos rfl, key]
          by_cases h3 : ix ∈ requested s.cluster.stored s.setUp ∧ (aget ix s.cluster.stored).isSome = true
          · rw [if_pos h3]; rfl
          · rw [if_neg h3]
            cases e4 : aget ix s.cluster.stored with
            | none => exact (hi.sane ix e4).trans e4.symm
            | some x =>
              exfalso
              apply h3
              refine ⟨?_, by simp [e4]⟩
              rw [requested]
              split
              · exact aget_isSome_iff.1 (by rw [e4]; rfl)
              · next h5 =>
                rcases h2 with h2 | h2
                · exact h2
                · rw [h2] at h5; exact absurd rfl h5
      · cases hb
    · cases h

theorem VisInv.run {c0 : Indices P} {cap : Nat} : ∀ {as : List VisAction} {s s' : VisState P}, VisInv c0 s → NoOthers as →
    visRun cap s as = some s' → VisInv c0 s'
  | [], s, s', hi, _, h => by rw [visRun] at h; cases h; exact hi
  | a :: as, s, s', hi, hn, h => by
    rw [visRun] at h
    split at h
    · next s1 h1 =>
      exact (hi.step (fun e => hn (e ▸ List.mem_cons_self ..)) h1).run (fun hm => hn (List.mem_cons_of_mem _ hm)) h
    · cases h

theorem visInv_start (c : Indices P) (hc : ∀ ix, aget ix c.stored = none → aget ix c.visible = none) (chunks) (n : Nat) :
    VisInv c { bulk := bulkStart chunks n, cluster := c, setUp := [], restored := false } := by
  refine ⟨rfl, fun c hc => (nomatch hc), fun w hw c hc => ?_, fun op ho => (nomatch ho), hc, fun _ ix => ?_, nofun, nofun, nofun, fun ix => .inl rfl, nofun⟩
  · rw [List.eq_of_mem_replicate hw] at hc
    exact nomatch hc
  · simp

/-- The actions of the tasks in a schedule. -/
def VisAction.erase : VisAction → Option BulkAction
  | .task a => some a
  | .refresh ok => some (.refreshed ok)
  | _ => none

theorem visRun_bulk {cap : Nat} : ∀ {as : List VisAction} {s s' : VisState P}, visRun cap s as = some s' →
    bulkRun BulkOp.isDelete cap s.bulk (as.filterMap VisAction.erase) = some s'.bulk
  | [], s, s', h => by rw [visRun] at h; cases h; rfl
  | a :: as, s, s', h => by
    rw [visRun] at h
    split at h
    · next s1 h1 =>
      have ih := visRun_bulk h
      cases a with
      | task a =>
        rw [visStep] at h1
        split at h1
        · split at h1
          · next b hb =>
            cases h1
            rw [isDeleteOp_eq] at hb
            simp only [List.filterMap_cons, VisAction.erase, bulkRun, hb]
            exact ih
          · cases h1
        · cases h1
      | shows ix =>
        rw [visStep] at h1
        split at h1
        · cases h1; simpa only [List.filterMap_cons, VisAction.erase] using ih
        · cases h1
      | refresh ok =>
        rw [visStep] at h1
        split at h1
        · next b hb =>
          cases h1
          rw [isDeleteOp_eq] at hb
          simp only [List.filterMap_cons, VisAction.erase, bulkRun, hb]
          exact ih
        · cases h1
      | setUp ix =>
        rw [visStep] at h1
        split at h1
        · split at h1
          · cases h1; simpa only [List.filterMap_cons, VisAction.erase] using ih
          · cases h1
        · cases h1
      | restore =>
        rw [visStep] at h1
        split at h1
        · split at h1
          · cases h1
          · cases h1; simpa only [List.filterMap_cons, VisAction.erase] using ih
        · cases h1
      | auto ix =>
        rw [visStep] at h1
        split at h1
        · cases h1
        · cases h1; simpa only [List.filterMap_cons, VisAction.erase] using ih
      | others =>
        rw [visStep] at h1
        cases h1; simpa only [List.filterMap_cons, VisAction.erase] using ih
    · cases h

theorem writeVisibly_bulk {c : Indices P} {ops : List (BulkOp P)} {o : BulkOptions} {as : List VisAction} {s : VisState P}
    (h : writeVisibly c ops o as = some s) : writeOps BulkOp.isDelete ops o (as.filterMap VisAction.erase) = some s.bulk := visRun_bulk h

/-- If the same is found for every name, the same is seen. -/
theorem sameDocs_of_aget {es es' : ES P} (h : ∀ ix, aget ix es = aget ix es') : SameDocs es es' :=
  ⟨fun ix => by rw [← aget_isSome_iff, ← aget_isSome_iff, h ix], fun ix => by rw [ES.docs, ES.docs, h ix]⟩

/-! ## All is sent before a refresh is asked for -/

theorem BulkInv.sent_late {isDelete : BulkOp P → Bool} {chunks : List (NumChunk (BulkOp P))} {N : Nat} {s : BulkState (BulkOp P)}
    (h : BulkInv isDelete chunks N s) (hr : s.refreshed = true) (hm : s.main.isRaised = false) : (okLog s.log).Perm chunks := by
  obtain ⟨lost, h1, h2⟩ := h.tasks
  have hlate := h.late (.inl hr)
  have hl := h.refreshed hr
  rw [h2 hm] at h1
  have e : s.main.rest = [] := by revert hl; cases s.main <;> simp [MainState.isLate, MainState.rest]
  simpa [BulkState.tasks, e, hlate.1, hlate.2] using h1

theorem sent_step {isDelete : BulkOp P → Bool} {chunks : List (NumChunk (BulkOp P))} {N cap : Nat} {s s' : BulkState (BulkOp P)}
    (h : BulkInv isDelete chunks N s) (hnd : (chunks.map Prod.fst).Nodup) (hp : s.refreshed = true → (okLog s.log).Perm chunks)
    {a : BulkAction} (hs : bulkStep isDelete cap s a = some s') (hr : s'.refreshed = true) : (okLog s'.log).Perm chunks := by
  cases hm : s'.main.isRaised with
  | false => exact (h.step hnd hs).sent_late hr hm
  | true =>
    by_cases ha : ∃ ok, a = .refreshed ok
    · obtain ⟨ok, rfl⟩ := ha
      rw [bulkStep] at hs
      split at hs
      · next n i d e =>
        have h1 : s.refreshed = true := (h.totals i d (.inr ⟨n, e⟩)).1
        have : s'.log = s.log := by
          split at hs
          · cases hs; rfl
          · split at hs <;> cases hs <;> rfl
        rw [this]; exact hp h1
      · cases hs
    · obtain ⟨_, _, ⟨l, p3, p4⟩, _, _, _, p8, _⟩ := bulkStep_parts hs (fun ok e => ha ⟨ok, e⟩)
      by_cases h0 : s.refreshed = true
      · have hh := (h.late (.inl h0)).2
        have : l = [] := by
          cases l with
          | nil => rfl
          | cons x l =>
            obtain ⟨w, hw, hx⟩ := p4 x (List.mem_cons_self ..)
            have : x.1 ∈ heldAll s.workers := by
              unfold heldAll
              exact List.mem_flatMap.2 ⟨w, hw, hx⟩
            rw [hh] at this
            cases this
        rw [p3, this, List.append_nil]
        exact hp h0
      · exfalso
        cases a with
        | main =>
          rw [bulkStep, mainStep] at hs
          split at hs
          · cases hs; exact h0 hr
          · split at hs
            · cases hs
            · dsimp only at hs
              split at hs <;> cases hs <;> exact h0 hr
          · cases hs; exact h0 hr
          · split at hs
            · cases hs
            · cases hs; exact h0 hr
          · split at hs
            · split at hs <;> cases hs <;> exact h0 hr
            · cases hs
          · split at hs
            · cases hs; cases hm
            · cases hs
          · cases hs
          · cases hs
          · cases hs
        | mainRaises => rw [bulkStep] at hs; split at hs <;> cases hs; exact h0 hr
        | get w => rw [bulkStep] at hs; split at hs <;> cases hs <;> exact h0 hr
        | response w r =>
          rw [bulkStep] at hs
          split at hs
          · split at hs <;> cases hs <;> exact h0 hr
          · cases hs
        | refreshed ok => exact ha ⟨ok, rfl⟩

theorem sent_run {isDelete : BulkOp P → Bool} {chunks : List (NumChunk (BulkOp P))} {N cap : Nat} (hnd : (chunks.map Prod.fst).Nodup) :
    ∀ {as : List BulkAction} {s s' : BulkState (BulkOp P)}, BulkInv isDelete chunks N s → (s.refreshed = true → (okLog s.log).Perm chunks) →
    bulkRun isDelete cap s as = some s' → s'.refreshed = true → (okLog s'.log).Perm chunks
  | [], s, s', _, hp, h, hr => by rw [bulkRun] at h; cases h; exact hp hr
  | a :: as, s, s', hi, hp, h, hr => by
    rw [bulkRun] at h
    split at h
    · next s1 h1 => exact sent_run hnd (hi.step hnd h1) (sent_step hi hnd hp h1) h hr
    · cases h

/-- Once a refresh is asked for, everything has been sent. -/
theorem refreshed_sent {isDelete : BulkOp P → Bool} {ops : List (BulkOp P)} {o : BulkOptions} (ho : 1 ≤ o.chunkSize) {as : List BulkAction}
    {s : BulkState (BulkOp P)} (h : writeOps isDelete ops o as = some s) (hr : s.refreshed = true) :
    ((s.log.filter (fun x => x.2.isOk)).flatMap (fun x => x.1.2)).Perm ops := by
  have := (sent_run (numberFrom_spec 0 _).2.1 (BulkInv.start _ _ _) nofun h hr).flatMap_right Prod.snd
  rw [chunks_flat ho] at this
  simpa [okLog, List.flatMap_map] using this

/-! ## The indices stay as they should -/

theorem nodup_refreshIndex {stored visible : ES P} {ix : Ix} (h : (akeys visible).Nodup) : (akeys (refreshIndex stored visible ix)).Nodup := by
  unfold refreshIndex
  split
  · exact nodup_aset h
  · exact h

theorem nodup_refresh {stored : ES P} : ∀ {ixs : List Ix} {visible : ES P}, (akeys visible).Nodup →
    (akeys (ixs.foldl (refreshIndex stored) visible)).Nodup
  | [], _, h => h
  | _ :: ixs, _, h => nodup_refresh (ixs := ixs) (nodup_refreshIndex h)

theorem visStep_keys {cap : Nat} {s s' : VisState P} {a : VisAction} (h : visStep cap s a = some s') (hn : (akeys s.cluster.visible).Nodup) :
    (akeys s'.cluster.visible).Nodup := by
  cases a with
  | task a =>
    rw [visStep] at h
    split at h
    · split at h <;> cases h; exact hn
    · cases h
  | setUp ix =>
    rw [visStep] at h
    split at h
    · split at h <;> cases h; exact hn
    · cases h
  | restore =>
    rw [visStep] at h
    split at h
    · split at h <;> cases h; exact hn
    · cases h
  | refresh ok =>
    rw [visStep] at h
    split at h <;> cases h
    exact nodup_refresh hn
  | shows ix =>
    rw [visStep] at h
    split at h <;> cases h
    exact nodup_refresh hn
  | auto ix =>
    rw [visStep] at h
    split at h <;> cases h
    exact nodup_refresh hn
  | others =>
    rw [visStep] at h
    cases h
    exact nodup_refresh hn

theorem visRun_keys {cap : Nat} : ∀ {as : List VisAction} {s s' : VisState P}, visRun cap s as = some s' → (akeys s.cluster.visible).Nodup →
    (akeys s'.cluster.visible).Nodup
  | [], s, s', h, hn => by rw [visRun] at h; cases h; exact hn
  | a :: as, s, s', h, hn => by
    rw [visRun] at h
    split at h
    · next s1 h1 => exact visRun_keys h (visStep_keys h1 hn)
    · cases h

theorem writeVisibly_inv {c : Indices P} (hc : c.Held) {ops : List (BulkOp P)} {o : BulkOptions} {as : List VisAction} {s : VisState P}
    (hn : NoOthers as) (h : writeVisibly c ops o as = some s) : VisInv c s :=
  (visInv_start c hc.exist _ _).run hn h

theorem writeVisibly_keys {c : Indices P} (hc : c.Held) {ops : List (BulkOp P)} {o : BulkOptions} {as : List VisAction} {s : VisState P}
    (h : writeVisibly c ops o as = some s) : (akeys s.cluster.visible).Nodup := visRun_keys h hc.keys

theorem Indices.Held.unpaused {c : Indices P} (hc : c.Held) {ix : Ix} (h : ix ∉ c.paused) : aget ix c.visible = aget ix c.stored :=
  Classical.byContradiction fun e => h (hc.paused ix e)

theorem VisInv.held {c : Indices P} (hc : c.Held) {s : VisState P} (hi : VisInv c s) (hk : (akeys s.cluster.visible).Nodup) : s.cluster.Held := by
  refine ⟨hk, hi.sane, fun ix hne => Classical.byContradiction fun hp => hne ?_⟩
  have other : ix ∉ s.setUp → aget ix s.cluster.stored = aget ix c.stored := fun h => by
    rw [hi.stored]
    exact aget_applyOps_other ix _ _ (fun op ho e => h (e ▸ hi.log op ho))
  have go : ix ∉ c.paused → ix ∉ s.setUp → aget ix s.cluster.visible = aget ix s.cluster.stored := fun h1 h2 => by
    rcases hi.shown ix with h | ⟨_, h⟩ | ⟨_, h⟩
    · rw [h, other h2]; exact hc.unpaused h1
    · rw [h, other h2]
    · exact h
  cases hr : s.restored with
  | false =>
    rw [hi.paused hr, not_or] at hp
    exact go hp.1 hp.2
  | true =>
    obtain ⟨g1, g2, g3⟩ := hi.restored hr
    by_cases hs : s.setUp = []
    · exact hi.done g1 ix (.inr hs)
    · by_cases hx : ix ∈ s.setUp
      · exact hi.done g1 ix (.inl hx)
      · exact go (fun h => hp (g3 hs ix h hx)) hx

theorem Indices.Settled.held {c : Indices P} (hc : c.Settled) : c.Held :=
  ⟨hc.keys, fun ix h => (hc.same ix).trans h, fun ix h => absurd (hc.same ix) h⟩

theorem VisInv.hidden {c : Indices P} (hc : c.Held) {s : VisState P} (hi : VisInv c s) (hr : s.bulk.refreshed = false) (ix : Ix) :
    aget ix s.cluster.visible = aget ix c.visible := by
  rcases hi.shown ix with h | ⟨h, h'⟩ | ⟨h, _⟩
  · exact h
  · rw [h', hc.unpaused h]
  · rw [hr] at h; cases h

theorem view_self : ∀ {es : ES P}, (akeys es).Nodup → (akeys es).map (fun ix => (ix, es.docs ix)) = es
  | [], _ => rfl
  | (ix, d) :: es, h => by
    rw [akeys_cons, List.nodup_cons] at h
    rw [akeys_cons, List.map_cons]
    congr 1
    · simp [ES.docs, aget]
    · refine Eq.trans (List.map_congr_left fun i hi => ?_) (view_self h.2)
      have hne : i ≠ ix := fun e => h.1 (e ▸ hi)
      have e : aget i ((ix, d) :: es) = aget i es := by simp [aget, hne]
      rw [ES.docs, ES.docs, e]

theorem Indices.Settled.view {c : Indices P} (hc : c.Settled) (hn : (akeys c.stored).Nodup) : c.view = c.stored := by
  rw [Indices.view]
  refine Eq.trans (List.map_congr_left fun i _ => ?_) (view_self hn)
  rw [ES.docs, ES.docs, hc.same]

theorem aget_deleteArcs (ix : Ix) : ∀ es : ES P, aget ix es.deleteArcs = if ix = .latest then aget ix es else none
  | [] => by simp [ES.deleteArcs, aget]
  | (i, d) :: es => by
    have ih := aget_deleteArcs ix es
    rw [ES.deleteArcs] at ih ⊢
    rw [List.filter_cons]
    by_cases h : i = .latest
    · subst h
      simp only [decide_true, if_true]
      by_cases h1 : ix = .latest
      · subst h1; simp [aget]
      · simp [aget, ih, h1]
    · simp only [h, decide_false, Bool.false_eq_true, if_false]
      rw [ih]
      split
      · next h1 => subst h1; simp [aget, Ne.symm h]
      · rfl

theorem Indices.Settled.deleteArcs {c : Indices P} (hc : c.Settled) : c.deleteArcs.Settled :=
  ⟨(List.filter_sublist.map _).nodup hc.keys, fun ix => by
    rw [Indices.deleteArcs, aget_deleteArcs, aget_deleteArcs, hc.same], by rw [Indices.deleteArcs, hc.running]; rfl⟩

/-- The operations are those of `sync`, and what `write_ops` starts with is settled. -/
theorem syncStart_settled {X : Parser P} {maxDocs : Nat} {db : PyStr} {resync : Bool} {m : Mongo} {c c' : Indices P} (hc : c.Settled)
    (hn : (akeys c.stored).Nodup) {ops : List (BulkOp P)} (h : syncStart X maxDocs db resync m c = .ok (some (c', ops))) :
    c'.Settled ∧ syncOps X maxDocs db resync m c.stored = .ok (c'.stored, ops) := by
  unfold syncStart at h
  unfold syncOps
  rw [hc.view hn] at h
  split at h
  · cases h
  · next h0 =>
    rw [if_neg h0]
    split at h
    · cases h
    · cases h
    · next sel last hs =>
      rw [hs]
      dsimp only at h ⊢
      cases resync with
      | false =>
        simp only [Bool.false_eq_true, if_false] at h ⊢
        rw [hc.view hn] at h
        split at h
        · cases h
        · next g => cases h; rw [g]; exact ⟨hc, rfl⟩
      | true =>
        simp only [if_true] at h ⊢
        rw [hc.deleteArcs.view ((List.filter_sublist.map _).nodup hn)] at h
        split at h
        · cases h
        · next g =>
          cases h
          have e : c.deleteArcs.stored = c.stored.deleteArcs := rfl
          rw [e] at g
          rw [g]
          exact ⟨hc.deleteArcs, rfl⟩

end Splitgill
