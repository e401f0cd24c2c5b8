import Verif.Proof.OptCalls
import Verif.Props.Locks
import Verif.Props.OptProcs
/-!
# C109: calls about options wait for nobody, end, and leave no lock behind
-/

namespace Splitgill.Props
open Splitgill

/-- **C109**: whatever processes do with `update_options`, `commit` and `rollback_options`, at most one is between taking and giving back the lock of a
database, and the lock is there meanwhile. -/
theorem C109_mutex (s : OptSys) (hs : ∀ q, s.procs q = none) (hn : s.mongo.locks.Nodup) (acts : List OptAct) (hc : CarefulOpt s acts) (db : PyStr) :
    (∀ p q, (s.run acts).Inside p db → (s.run acts).Inside q db → p = q) ∧
    ∀ p, (s.run acts).Inside p db → isLocked db (s.run acts).mongo = true := by
  have h := lockInv_opts acts (lockInv_optStart hs hn) hc
  refine ⟨fun p q hp hq => h.one p q db (OptSys.locks_holds.2 hp) (OptSys.locks_holds.2 hq), fun p hp => ?_⟩
  have h' : db ∈ (s.run acts).mongo.locks := h.has p db (OptSys.locks_holds.2 hp)
  simpa [isLocked] using h'

/-- **C109**: in every state that processes get to, each call that is being made ends, without any help of other processes, after at most 19 commands and
one for each document that is not committed. -/
theorem C109_ends (s : OptSys) (hs : ∀ q, s.procs q = none) (acts : List OptAct) (p : Nat) (x : OptProc) (hx : (s.run acts).procs p = some x)
    (ha : x.alive = true) (turns : List (Int × Nat)) (ht : TakesDocs p (s.run acts) turns)
    (hl : 19 + ((s.run acts).mongo.data x.db).countP (fun d => d.version.isNone) + (s.run acts).mongo.options.countP (fun d => d.version.isNone) ≤
      turns.length) :
    ∃ y, ((s.run acts).alone p turns).procs p = some y ∧ y.alive = true ∧ y.db = x.db ∧ y.call = x.call ∧ y.pc.ended = true := by
  have hsound : (s.run acts).Sound := OptSys.Sound.run acts (fun q x hx => by rw [hs] at hx; cases hx)
  have := x.pc.rank_le x.db (s.run acts).mongo
  exact alone_ends turns hx ha (hsound p x hx) ht (Nat.le_trans this hl)

/-- The lock of the database as it will be when the process has left. -/
theorem lock_kept {p : Nat} : ∀ (turns : List (Int × Nat)) {s : OptSys} {x y : OptProc}, s.procs p = some x → x.alive = true → s.mongo.locks.Nodup →
    (s.alone p turns).procs p = some y → y.pc.ended = true →
    (s.Inside p x.db → isLocked x.db (s.alone p turns).mongo = false) ∧
    (¬ s.Inside p x.db → isLocked x.db (s.alone p turns).mongo = isLocked x.db s.mongo) ∧
    ∀ other, other ≠ x.db → isLocked other (s.alone p turns).mongo = isLocked other s.mongo
  | [], s, x, y, hx, ha, hn, hy, he => by
    have : s.procs p = some y := hy
    rw [hx] at this
    cases this
    refine ⟨?_, fun _ => rfl, fun _ _ => rfl⟩
    rintro ⟨x', h1, _, _, c, h4, h5⟩
    rw [hx] at h1
    cases h1
    rw [h4] at he
    cases c <;> first | (cases h5; done) | (cases he; done)
  | t :: turns, s, x, y, hx, ha, hn, hy, he => by
    have hx' : (s.act (.step p t.1 t.2)).procs p = some ⟨x.db, x.call, (x.call.step x.db t.1 t.2 s.mongo x.pc).2, true⟩ := by
      rw [OptSys.step_alive hx ha, OptSys.set_procs, if_pos rfl]
    have hm : (s.act (.step p t.1 t.2)).mongo = (x.call.step x.db t.1 t.2 s.mongo x.pc).1 := by
      rw [OptSys.step_alive hx ha]; rfl
    have hin : s.Inside p x.db ↔ ∃ c, x.pc = .commit c ∧ c.inside = true :=
      ⟨fun ⟨x', h1, _, _, h4⟩ => by rw [hx] at h1; cases h1; exact h4, fun h4 => ⟨x, hx, ha, rfl, h4⟩⟩
    have hin' : (s.act (.step p t.1 t.2)).Inside p x.db ↔
        ∃ c, (x.call.step x.db t.1 t.2 s.mongo x.pc).2 = .commit c ∧ c.inside = true :=
      ⟨fun ⟨x', h1, _, _, h4⟩ => by rw [hx'] at h1; cases h1; exact h4, fun h4 => ⟨_, hx', rfl, rfl, h4⟩⟩
    have key : (s.act (.step p t.1 t.2)).mongo.locks.Nodup ∧
        (s.Inside p x.db → ¬ (s.act (.step p t.1 t.2)).Inside p x.db → isLocked x.db (s.act (.step p t.1 t.2)).mongo = false) ∧
        (¬ s.Inside p x.db → (s.act (.step p t.1 t.2)).Inside p x.db → isLocked x.db s.mongo = false) ∧
        (¬ s.Inside p x.db → ¬ (s.act (.step p t.1 t.2)).Inside p x.db → (s.act (.step p t.1 t.2)).mongo.locks = s.mongo.locks) ∧
        (∀ other, other ≠ x.db → isLocked other (s.act (.step p t.1 t.2)).mongo = isLocked other s.mongo) := by
      rw [hin, hin', hm]
      by_cases hcm : ∃ c, x.pc = .commit c
      · obtain ⟨c, hcm⟩ := hcm
        have e : x.call.step x.db t.1 t.2 s.mongo x.pc =
            ((commitStep x.db t.1 t.2 s.mongo c).1, .commit (commitStep x.db t.1 t.2 s.mongo c).2) := by
          rw [hcm]; rfl
        rw [e, hcm]
        refine ⟨?_, ?_, ?_, ?_, fun other ho => (C21_other_locks x.db other ho s.mongo).2.2 _ _ _⟩
        · dsimp only
          cases hi : (commitStep x.db t.1 t.2 s.mongo c).2.inside with
          | true =>
            rcases commitStep_inside _ _ _ _ _ hi with ⟨_, h⟩ | ⟨_, h1, h⟩
            · rw [h]; exact hn
            · rw [h]
              exact List.nodup_append.2 ⟨hn, by simp, by rintro a h2 b h3 rfl; rw [List.mem_singleton] at h3; exact h1 (h3 ▸ h2)⟩
          | false =>
            rcases commitStep_leave _ _ _ _ _ hi with ⟨_, h⟩ | ⟨_, h⟩
            · rw [h]; exact hn.erase _
            · rw [h]; exact hn
        · rintro ⟨c', h1, h2⟩ h3
          cases h1
          have h3 : (commitStep x.db t.1 t.2 s.mongo c).2.inside = false := by
            cases hi : (commitStep x.db t.1 t.2 s.mongo c).2.inside with
            | true => exact absurd ⟨_, rfl, hi⟩ h3
            | false => rfl
          rcases commitStep_leave _ _ _ _ _ h3 with ⟨_, h⟩ | ⟨h, _⟩
          · have hne : x.db ∉ s.mongo.locks.erase x.db := fun hm => (hn.mem_erase_iff.1 hm).1 rfl
            simp [isLocked, h, hne]
          · rw [h2] at h; cases h
        · rintro h1 ⟨c', h2, h3⟩
          cases h2
          rcases commitStep_inside _ _ _ _ _ h3 with ⟨h, _⟩ | ⟨_, h, _⟩
          · exact absurd ⟨_, rfl, h⟩ h1
          · simp [isLocked, h]
        · intro h1 h3
          have h3 : (commitStep x.db t.1 t.2 s.mongo c).2.inside = false := by
            cases hi : (commitStep x.db t.1 t.2 s.mongo c).2.inside with
            | true => exact absurd ⟨_, rfl, hi⟩ h3
            | false => rfl
          rcases commitStep_leave _ _ _ _ _ h3 with ⟨h, _⟩ | ⟨_, h⟩
          · exact absurd ⟨_, rfl, h⟩ h1
          · dsimp only; rw [h]
      · have hcm : ∀ c, x.pc ≠ .commit c := fun c e => hcm ⟨c, e⟩
        have ho := step_outside hcm t.1 t.2 s.mongo
        have hnot : ¬ ∃ c, (x.call.step x.db t.1 t.2 s.mongo x.pc).2 = .commit c ∧ c.inside = true := by
          rintro ⟨c, h1, h2⟩
          rw [ho.2 c h1] at h2
          cases h2
        refine ⟨by rw [ho.1]; exact hn, fun ⟨c, h1, _⟩ => absurd h1 (hcm c), fun _ h => absurd h hnot, fun _ _ => ho.1, fun other _ => ?_⟩
        simp only [isLocked, ho.1]
    obtain ⟨k1, k2, k3, k4, k5⟩ := key
    obtain ⟨i1, i2, i3⟩ := lock_kept turns (s := s.act (.step p t.1 t.2)) hx' rfl k1 hy he
    refine ⟨fun h => ?_, fun h => ?_, fun other ho => (i3 other ho).trans (k5 other ho)⟩
    · by_cases h' : (s.act (.step p t.1 t.2)).Inside p x.db
      · exact i1 h'
      · exact (i2 h').trans (k2 h h')
    · by_cases h' : (s.act (.step p t.1 t.2)).Inside p x.db
      · exact (i1 h').trans (k3 h h').symm
      · refine (i2 h').trans ?_
        simp only [isLocked, k4 h h']

theorem locks_nodup {s : OptSys} (hs : ∀ q, s.procs q = none) (hn : s.mongo.locks.Nodup) {acts : List OptAct} (hc : CarefulOpt s acts) :
    (s.run acts).mongo.locks.Nodup := (lockInv_opts acts (lockInv_optStart hs hn) hc).nodup

/-- **C109**: a call that has ended has given its lock back. If the process had the lock it is free, otherwise it is as it was, and the locks of other
databases are as they were. -/
theorem C109_lock (s : OptSys) (hs : ∀ q, s.procs q = none) (hn : s.mongo.locks.Nodup) (acts : List OptAct) (hc : CarefulOpt s acts) (p : Nat) (x y : OptProc)
    (hx : (s.run acts).procs p = some x) (ha : x.alive = true) (turns : List (Int × Nat)) (hy : ((s.run acts).alone p turns).procs p = some y)
    (he : y.pc.ended = true) :
    ((s.run acts).Inside p x.db → isLocked x.db ((s.run acts).alone p turns).mongo = false) ∧
    (¬ (s.run acts).Inside p x.db → isLocked x.db ((s.run acts).alone p turns).mongo = isLocked x.db (s.run acts).mongo) ∧
    ∀ other, other ≠ x.db → isLocked other ((s.run acts).alone p turns).mongo = isLocked other (s.run acts).mongo :=
  lock_kept turns hx ha (locks_nodup hs hn hc) hy he

/-- **C109**: if a command raises, the call has ended after one more command at most, which gives the lock back; the process lives, and nothing but the
lock has changed. -/
theorem C109_raise (s : OptSys) (hs : ∀ q, s.procs q = none) (hn : s.mongo.locks.Nodup) (acts : List OptAct) (hc : CarefulOpt s acts) (p : Nat) (x : OptProc)
    (hx : (s.run acts).procs p = some x) (ha : x.alive = true) (he : x.pc.ended = false) (clock : Int) (pick : Nat) :
    let s' := ((s.run acts).act (.raise p)).act (.step p clock pick)
    (∃ y, s'.procs p = some y ∧ y.alive = true ∧ y.pc.ended = true ∧ y.pc.result = none) ∧
    s'.mongo.data = (s.run acts).mongo.data ∧ s'.mongo.options = (s.run acts).mongo.options ∧
    ((s.run acts).Inside p x.db → isLocked x.db s'.mongo = false) ∧
    (¬ (s.run acts).Inside p x.db → s'.mongo = (s.run acts).mongo) := by
  intro s'
  have hnd := locks_nodup hs hn hc
  obtain ⟨db, call, pc, alive⟩ := x
  dsimp only at *
  cases ha
  have h1 : (s.run acts).act (.raise p) = (s.run acts).set p ⟨db, call, pc.raise, true⟩ := by simp only [OptSys.act, hx]
  have h2 : s' = OptSys.set { (s.run acts).set p ⟨db, call, pc.raise, true⟩ with mongo := (call.step db clock pick (s.run acts).mongo pc.raise).1 } p
      ⟨db, call, (call.step db clock pick (s.run acts).mongo pc.raise).2, true⟩ := by
    show ((s.run acts).act (.raise p)).act _ = _
    rw [h1]
    exact OptSys.step_alive (x := ⟨db, call, pc.raise, true⟩) (by rw [OptSys.set_procs, if_pos rfl]) rfl clock pick
  have hin : (s.run acts).Inside p db ↔ ∃ c, pc = .commit c ∧ c.inside = true :=
    ⟨fun ⟨x', g1, _, _, g4⟩ => by rw [hx] at g1; cases g1; exact g4, fun g4 => ⟨_, hx, rfl, rfl, g4⟩⟩
  have hfail : pc.raise = .failed ∨ pc.raise = .commit .failed → (¬ ∃ c, pc = .commit c ∧ c.inside = true) →
      (∃ y, s'.procs p = some y ∧ y.alive = true ∧ y.pc.ended = true ∧ y.pc.result = none) ∧
      s'.mongo.data = (s.run acts).mongo.data ∧ s'.mongo.options = (s.run acts).mongo.options ∧
      ((s.run acts).Inside p db → isLocked db s'.mongo = false) ∧ (¬ (s.run acts).Inside p db → s'.mongo = (s.run acts).mongo) := by
    intro hr hni
    have e : call.step db clock pick (s.run acts).mongo pc.raise = ((s.run acts).mongo, pc.raise) := by
      rcases hr with hr | hr <;> rw [hr] <;> cases call <;> rfl
    rw [e] at h2
    rw [h2, hin]
    refine ⟨⟨_, by rw [OptSys.set_procs, if_pos rfl], rfl, ?_, ?_⟩, rfl, rfl, fun h => absurd h hni, fun _ => rfl⟩
    · rcases hr with hr | hr <;> rw [hr] <;> rfl
    · rcases hr with hr | hr <;> rw [hr] <;> rfl
  cases pc with
  | commit c =>
    by_cases hi : c.inside = true
    · have e : OptPc.raise (.commit c) = .commit .raising := by simp only [OptPc.raise, hi, if_true]
      have e2 : call.step db clock pick (s.run acts).mongo (.commit .raising) = (release db (s.run acts).mongo, .commit .failed) := by cases call <;> rfl
      rw [e, e2] at h2
      rw [h2, hin]
      refine ⟨⟨_, by rw [OptSys.set_procs, if_pos rfl], rfl, rfl, rfl⟩, rfl, rfl, fun _ => ?_, fun h => absurd ⟨c, rfl, hi⟩ h⟩
      have hne : db ∉ (s.run acts).mongo.locks.erase db := fun hm => (hnd.mem_erase_iff.1 hm).1 rfl
      show isLocked db (release db (s.run acts).mongo) = false
      simp [isLocked, release, hne]
    · refine hfail (.inr ?_) (fun ⟨c', g1, g2⟩ => by cases g1; exact hi g2)
      have he : c.ended = false := he
      simp only [OptPc.raise]
      rw [if_neg hi, he]
      rfl
  | done => cases he
  | failed => cases he
  | _ => exact hfail (.inl rfl) (fun ⟨c, g1, _⟩ => by cases g1)

/-- Turns that always take the first document. -/
theorem takesDocs_first (p : Nat) (t : Int) : ∀ (n : Nat) (s : OptSys), TakesDocs p s (List.replicate n (t, 0))
  | 0, _ => trivial
  | n + 1, s => ⟨fun _ _ h => Nat.pos_of_ne_zero h, takesDocs_first p t n _⟩

/-- Process 0 gives options and is about to commit them while process 1 is inside of its commit. -/
def exWaiting : List OptAct := [.start 0 ['a'] (.update (exGiven 9) true), .start 1 ['a'] .commit] ++ exSteps 0 5 3 ++ exSteps 1 6 2

set_option maxRecDepth 100000 in
example : (∀ q, exSettled.procs q = none) ∧ exSettled.mongo.locks.Nodup ∧ CarefulOpt exSettled exWaiting ∧ (exSettled.run exWaiting).Inside 1 ['a'] ∧
    (∃ x, (exSettled.run exWaiting).procs 0 = some x ∧ x.alive = true ∧ x.pc.ended = false ∧ ¬ (exSettled.run exWaiting).Inside 0 ['a']) ∧
    TakesDocs 1 (exSettled.run exWaiting) (List.replicate 20 (7, 0)) ∧
    19 + ((exSettled.run exWaiting).mongo.data ['a']).countP (fun d => d.version.isNone) +
      (exSettled.run exWaiting).mongo.options.countP (fun d => d.version.isNone) = 20 := by
  refine ⟨fun _ => rfl, by decide, ?_, ⟨_, rfl, rfl, rfl, _, rfl, rfl⟩, ⟨_, rfl, rfl, rfl, ?_⟩, takesDocs_first _ _ _ _, by decide +kernel⟩
  · simp [exWaiting, exSteps, CarefulOpt, List.replicate]
  · rintro ⟨x, h1, _, _, c, h4, h5⟩
    cases h1
    cases h4
    cases h5

set_option maxRecDepth 100000 in
/-- Process 0 ends while process 1 stands still inside, and process 1 commits the options of process 0. -/
example : (((exSettled.run exWaiting).alone 0 (List.replicate 20 (7, 0))).procs 0).map (fun y => (y.alive, y.pc.ended, y.pc.result)) = some (true, true, none) ∧
    isLocked ['a'] ((exSettled.run exWaiting).alone 0 (List.replicate 20 (7, 0))).mongo = true ∧
    (((exSettled.run exWaiting).alone 1 (List.replicate 20 (7, 0))).procs 1).map (fun y => (y.alive, y.pc.ended, y.pc.result)) = some (true, true, some (some 7)) ∧
    isLocked ['a'] ((exSettled.run exWaiting).alone 1 (List.replicate 20 (7, 0))).mongo = false ∧
    aget (some 7) (getOptions ['a'] false ((exSettled.run exWaiting).alone 1 (List.replicate 20 (7, 0))).mongo) = some (exGiven 9) := by
  refine ⟨by decide +kernel, by decide +kernel, by decide +kernel, by decide +kernel, by decide +kernel⟩

end Splitgill.Props
