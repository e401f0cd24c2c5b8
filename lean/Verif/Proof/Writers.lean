import Verif.Spec.Writers
import Verif.Proof.Procs2
/-!
# Proofs about processes that ingest and commit: the lock, and which records are committed
-/

namespace Splitgill

/-! ## Steps -/

theorem commitNth_forall {v : Int} : ∀ (k : Nat) (c : Coll),
    List.Forall₂ (fun d d' => d' = d ∨ (d.version = none ∧ d' = { d with version := some v })) c (commitNth v k c)
  | _, [] => .nil
  | k, d :: c => by
    rw [commitNth.eq_def]
    dsimp only
    split
    · next h =>
      cases k with
      | zero => exact .cons (.inr ⟨Option.isNone_iff_eq_none.1 h, rfl⟩) (List.forall₂_same.2 fun _ _ => .inl rfl)
      | succ k => exact .cons (.inl rfl) (commitNth_forall k c)
    · exact .cons (.inl rfl) (commitNth_forall k c)

theorem commitNth_mem {v : Int} {k : Nat} {c : Coll} {d' : MongoRecord} (h : d' ∈ commitNth v k c) :
    d' ∈ c ∨ ∃ d ∈ c, d.version = none ∧ d' = { d with version := some v } := by
  obtain ⟨i, hi, e⟩ := List.getElem_of_mem h
  have hf := commitNth_forall (v := v) k c
  have hl := hf.length_eq
  have := hf.get (i := i) (by omega) hi
  simp only [List.get_eq_getElem, e] at this
  rcases this with h | ⟨h1, h2⟩
  · exact .inl (h ▸ List.getElem_mem _)
  · exact .inr ⟨_, List.getElem_mem _, h1, h2⟩

/-- What a step of a process is. -/
inductive Writer.Steps (U : Unicode) (size : Nat) (db : PyStr) (clock : Int) (pick : Option Nat) (m : Mongo) (w : Writer) : Mongo → Writer → Prop
  | same (h : w.pc.ended = true) : Steps U size db clock pick m w m w
  | failed (h : w.pc.ended = false) (h : w.ingest.raised.isSome = true) : Steps U size db clock pick m w m { w with pc := .failed }
  | returns (h : w.pc.ended = false) (hf : w.ingest.finished = true) (hc : w.doCommit = false) : Steps U size db clock pick m w m { w with pc := .done none }
  | ingest (h : w.pc.ended = false) (hf : w.ingest.finished = false) : Steps U size db clock pick m w (m.setData db (w.ingest.step U size (m.data db)).1)
      { w with ingest := (w.ingest.step U size (m.data db)).2 }
  | locked (hf : w.ingest.finished = true) (hc : w.doCommit = true) (h : w.pc = .acquire) (hl : db ∈ m.locks) : Steps U size db clock pick m w m { w with pc := .locked }
  | acquire (hf : w.ingest.finished = true) (hc : w.doCommit = true) (h : w.pc = .acquire) (hl : db ∉ m.locks) :
      Steps U size db clock pick m w { m with locks := m.locks ++ [db] } { w with pc := .checkData }
  | release (hf : w.ingest.finished = true) (hc : w.doCommit = true) (r : Option Int) (h : w.pc = .release r) :
      Steps U size db clock pick m w (Splitgill.release db m) { w with pc := .done r }
  | raising (hf : w.ingest.finished = true) (hc : w.doCommit = true) (h : w.pc = .raising) : Steps U size db clock pick m w (Splitgill.release db m) { w with pc := .failed }
  | noData (hf : w.ingest.finished = true) (hc : w.doCommit = true) (h : w.pc = .checkData) (hd : hasUncommittedData (m.data db) = false) :
      Steps U size db clock pick m w m { w with pc := .checkOptions }
  | nothing (hf : w.ingest.finished = true) (hc : w.doCommit = true) (h : w.pc = .checkOptions) : Steps U size db clock pick m w m { w with pc := .release none }
  | options (hf : w.ingest.finished = true) (hc : w.doCommit = true) (os : List OptDoc) (pc : Pc)
      (h : w.pc.inside = true) (h1 : ∀ v, w.pc ≠ .data v) (h2 : ∀ v, w.pc ≠ .options v) (h3 : ∀ r, w.pc ≠ .release r) (h4 : w.pc ≠ .raising)
      (hpc : pc = .hasOptions ∨ pc = .pendingOptions ∨ pc = .getOptions ∨ (∃ l, pc = .upCheck l ∨ pc = .upRollback l ∨ pc = .upInsert l) ∨ pc = .clock) :
      Steps U size db clock pick m w { m with options := os } { w with pc := pc }
  | clock (hf : w.ingest.finished = true) (hc : w.doCommit = true) (h : w.pc = .clock) : Steps U size db clock pick m w m { w with pc := .data clock, todo := none }
  | begin (hf : w.ingest.finished = true) (hc : w.doCommit = true) (v : Int) (h : w.pc = .data v) :
      Steps U size db clock pick m w m { w with todo := some (uncommittedIds (m.data db)) }
  | data (hf : w.ingest.finished = true) (hc : w.doCommit = true) (v : Int) (k : Nat) (h : w.pc = .data v) : Steps U size db clock pick m w (m.setData db (commitNth v k (m.data db))) w
  | wait (hf : w.ingest.finished = true) (hc : w.doCommit = true) (v : Int) (h : w.pc = .data v) : Steps U size db clock pick m w m w
  | dataEnd (hf : w.ingest.finished = true) (hc : w.doCommit = true) (v : Int) (ids : List PyStr) (h : w.pc = .data v) (ht : w.todo = some ids)
      (he : ∀ id ∈ ids, id ∉ uncommittedIds (m.data db)) : Steps U size db clock pick m w m { w with pc := .options v }
  | optionsData (hf : w.ingest.finished = true) (hc : w.doCommit = true) (v : Int) (os : List OptDoc) (h : w.pc = .options v) : Steps U size db clock pick m w { m with options := os } w
  | optionsEnd (hf : w.ingest.finished = true) (hc : w.doCommit = true) (v : Int) (h : w.pc = .options v) : Steps U size db clock pick m w m { w with pc := .release (some v) }

theorem Writer.steps {U : Unicode} {size : Nat} {db : PyStr} {clock : Int} {pick : Option Nat} {m : Mongo} {w : Writer} :
    Writer.Steps U size db clock pick m w (w.step U size db clock pick m).1 (w.step U size db clock pick m).2 := by
  unfold Writer.step
  split
  · next h => exact .same h
  next h =>
  rw [Bool.not_eq_true] at h
  split
  · next h' => exact .failed h h'
  split
  · next hf =>
    split
    · next hc =>
      obtain ⟨ing, dc, pc, todo, al⟩ := w
      dsimp only at h hf hc
      subst hc
      cases pc with
      | clock => exact .clock hf rfl rfl
      | data v =>
        cases todo with
        | none => exact .begin hf rfl v rfl
        | some ids =>
          cases pick with
          | some k => exact .data hf rfl v k rfl
          | none =>
            simp only [Writer.commitStep]
            split
            · exact .wait hf rfl v rfl
            · next hn =>
              refine .dataEnd hf rfl v ids rfl rfl (fun id hid hm => hn ?_)
              exact List.any_eq_true.2 ⟨id, hid, decide_eq_true hm⟩
      | options v =>
        cases pick with
        | some k => exact .optionsData hf rfl v _ rfl
        | none => exact .optionsEnd hf rfl v rfl
      | acquire =>
        simp only [Writer.commitStep, Splitgill.commitStep, Splitgill.acquire]
        split
        · next e =>
          split at e
          · cases e
          · cases e
            next hl => exact .acquire hf rfl rfl hl
        · next e =>
          split at e
          · cases e
            next hl => exact .locked hf rfl rfl hl
          · cases e
      | checkData =>
        simp only [Writer.commitStep, Splitgill.commitStep]
        split
        · exact .options hf rfl m.options _ rfl (fun _ => nofun) (fun _ => nofun) (fun _ => nofun) nofun (.inl rfl)
        · next hd => exact .noData hf rfl rfl (by simpa using hd)
      | checkOptions =>
        simp only [Writer.commitStep, Splitgill.commitStep]
        split
        · exact .options hf rfl m.options _ rfl (fun _ => nofun) (fun _ => nofun) (fun _ => nofun) nofun (.inl rfl)
        · exact .nothing hf rfl rfl
      | hasOptions =>
        simp only [Writer.commitStep, Splitgill.commitStep]
        split
        · exact .options hf rfl m.options _ rfl (fun _ => nofun) (fun _ => nofun) (fun _ => nofun) nofun (.inr (.inr (.inr (.inr rfl))))
        · exact .options hf rfl m.options _ rfl (fun _ => nofun) (fun _ => nofun) (fun _ => nofun) nofun (.inr (.inl rfl))
      | pendingOptions =>
        simp only [Writer.commitStep, Splitgill.commitStep]
        split
        · exact .options hf rfl m.options _ rfl (fun _ => nofun) (fun _ => nofun) (fun _ => nofun) nofun (.inr (.inr (.inr (.inr rfl))))
        · exact .options hf rfl m.options _ rfl (fun _ => nofun) (fun _ => nofun) (fun _ => nofun) nofun (.inr (.inr (.inl rfl)))
      | getOptions =>
        exact .options hf rfl m.options _ rfl (fun _ => nofun) (fun _ => nofun) (fun _ => nofun) nofun (.inr (.inr (.inr (.inl ⟨_, .inl rfl⟩))))
      | upCheck l =>
        simp only [Writer.commitStep, Splitgill.commitStep]
        split
        · exact .options hf rfl m.options _ rfl (fun _ => nofun) (fun _ => nofun) (fun _ => nofun) nofun (.inr (.inr (.inr (.inl ⟨_, .inr (.inl rfl)⟩))))
        · exact .options hf rfl m.options _ rfl (fun _ => nofun) (fun _ => nofun) (fun _ => nofun) nofun (.inr (.inr (.inr (.inl ⟨_, .inr (.inr rfl)⟩))))
      | upRollback l =>
        exact .options hf rfl _ _ rfl (fun _ => nofun) (fun _ => nofun) (fun _ => nofun) nofun (.inr (.inr (.inr (.inl ⟨_, .inr (.inr rfl)⟩))))
      | upInsert l =>
        simp only [Writer.commitStep, Splitgill.commitStep]
        split
        · exact .options hf rfl m.options _ rfl (fun _ => nofun) (fun _ => nofun) (fun _ => nofun) nofun (.inr (.inr (.inr (.inr rfl))))
        · exact .options hf rfl _ _ rfl (fun _ => nofun) (fun _ => nofun) (fun _ => nofun) nofun (.inr (.inr (.inr (.inr rfl))))
      | release r => exact .release hf rfl r rfl
      | raising => exact .raising hf rfl rfl
      | done r => exact Bool.noConfusion h
      | locked => exact Bool.noConfusion h
      | failed => exact Bool.noConfusion h
    · next hc => exact .returns h hf (by simpa using hc)
  · next hf => exact .ingest h (by simpa using hf)

end Splitgill
