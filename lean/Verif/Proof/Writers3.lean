import Verif.Proof.Writers2
/-!
# Proofs about processes that ingest and commit: which records are committed, and with which versions
-/

namespace Splitgill

variable {U : Unicode} {size : Nat} {db : PyStr} {own : PyStr → Bool} {p : Nat}

/-- How process `p` changes in an action. -/
inductive ProcChange (U : Unicode) (size : Nat) (db : PyStr) (p : Nat) (s : WritersState) (a : WriterAct) : Prop
  | same (hne : ∀ clock pick, a = .step p clock pick → (s.procs p).alive = false) (h : (s.act U size db a).procs p = s.procs p)
  | raise (e : a = .raise p) (h : (s.act U size db a).procs p = (s.procs p).raise)
  | crash (e : a = .crash p) (h : (s.act U size db a).procs p = { s.procs p with alive := false })
  | step (clock : Int) (pick : Option Nat) (e : a = .step p clock pick) (ha : (s.procs p).alive = true)
      (hs : Writer.Steps U size db clock pick s.mongo (s.procs p) (s.act U size db a).mongo ((s.act U size db a).procs p))

theorem proc_change (s : WritersState) (a : WriterAct) : ProcChange U size db p s a := by
  cases a with
  | raise q =>
    by_cases e : p = q
    · subst e
      by_cases ha : (s.procs p).alive = true
      · exact .raise rfl (by simp only [WritersState.act, ha, if_true, WritersState.set_same])
      · exact .same (fun _ _ h => nomatch h) (by simp only [WritersState.act, ha, Bool.false_eq_true, if_false])
    · refine .same (fun _ _ h => nomatch h) ?_
      simp only [WritersState.act]
      split
      · rw [WritersState.set_other _ e]
      · rfl
  | crash q =>
    by_cases e : p = q
    · subst e
      exact .crash rfl (by simp only [WritersState.act, WritersState.set_same])
    · exact .same (fun _ _ h => nomatch h) (by simp only [WritersState.act, WritersState.set_other _ e])
  | options os => exact .same (fun _ _ h => nomatch h) rfl
  | adminRelease => exact .same (fun _ _ h => nomatch h) rfl
  | step q clock pick =>
    by_cases ha : (s.procs q).alive = true
    · by_cases e : p = q
      · subst e
        refine .step clock pick rfl ha ?_
        simp only [WritersState.act, ha, if_true, WritersState.set_same]
        exact Writer.steps
      · refine .same (fun _ _ h => ?_) (by simp only [WritersState.act, ha, if_true, WritersState.set_other _ e])
        injection h with h
        exact absurd h.symm e
    · refine .same (fun _ _ h => ?_) (by simp only [WritersState.act, ha, Bool.false_eq_true, if_false])
      injection h with h
      rw [← h]
      simpa using ha

/-- The data of a commit is done. -/
def Pc.dataDone : Pc → Bool
  | .checkOptions => true
  | .options _ => true
  | .release _ => true
  | .done _ => true
  | _ => false

structure WriterClean (own : PyStr → Bool) (p : Nat) (db : PyStr) (s : WritersState) : Prop where
  fin : (s.procs p).pc ≠ .acquire → (s.procs p).pc.ended = false → (s.procs p).ingest.finished = true
  clean : (s.procs p).doCommit = true → (s.procs p).pc.dataDone = true → ∀ d ∈ ownDocs own (s.mongo.data db), d.version ≠ none
  todo : ∀ v ids, (s.procs p).pc = .data v → (s.procs p).todo = some ids → ∀ d ∈ ownDocs own (s.mongo.data db), d.version = none → d.id ∈ ids

/-- An action that is no step of the ingest of `p` makes none of its records uncommitted. -/
theorem less_open {s : WritersState} (h : s.Split own p) (a : WriterAct)
    (hn : ∀ clock pick, a = .step p clock pick → (s.procs p).alive = true → (s.procs p).ingest.finished = false → (s.procs p).pc.ended = false → False) :
    ∀ d ∈ ownDocs own ((s.act U size db a).mongo.data db), d.version = none → d ∈ ownDocs own (s.mongo.data db) := by
  intro d hd hv
  cases own_change (U := U) (size := size) (db := db) h a with
  | none h _ => rwa [h] at hd
  | ingest clock pick e ha hf he _ _ => exact (hn clock pick e ha hf he).elim
  | version q clock pick v k e hq ha h _ =>
    rw [h, mem_ownDocs] at hd
    rcases commitNth_mem hd.1 with h1 | ⟨d0, _, _, rfl⟩
    · exact mem_ownDocs.2 ⟨h1, hd.2⟩
    · cases hv

theorem hasUncommittedData_false {c : Coll} (h : hasUncommittedData c = false) : ∀ d ∈ c, d.version ≠ none := by
  intro d hd hv
  unfold hasUncommittedData at h
  rw [List.any_eq_false] at h
  exact h d hd (by rw [hv]; rfl)

theorem mem_uncommittedIds {c : Coll} {d : MongoRecord} (hd : d ∈ c) (hv : d.version = none) : d.id ∈ uncommittedIds c :=
  List.mem_map.2 ⟨d, List.mem_filter.2 ⟨hd, by rw [hv]; rfl⟩, rfl⟩

theorem WriterClean.act {s : WritersState} (hs : s.Split own p) (h : WriterClean own p db s) (a : WriterAct) :
    WriterClean own p db (s.act U size db a) := by
  have keep : ∀ w', (s.act U size db a).procs p = w' → w'.ingest = (s.procs p).ingest → w'.doCommit = (s.procs p).doCommit → w'.pc = (s.procs p).pc →
      w'.todo = (s.procs p).todo →
      (∀ d ∈ ownDocs own ((s.act U size db a).mongo.data db), d.version = none → d ∈ ownDocs own (s.mongo.data db)) → WriterClean own p db (s.act U size db a) := by
    intro w' e e1 e2 e3 e4 hl
    refine ⟨?_, ?_, ?_⟩
    · rw [e, e1, e3]; exact h.fin
    · rw [e, e2, e3]
      exact fun h1 h2 d hd hv => h.clean h1 h2 d (hl d hd hv) hv
    · rw [e, e3, e4]
      exact fun v ids h1 h2 d hd hv => h.todo v ids h1 h2 d (hl d hd hv) hv
  have endp : ∀ {pc : Pc}, pc.dataDone = false → (∀ v, pc ≠ .data v) → (s.act U size db a).procs p = { s.procs p with pc := pc } →
      (pc.ended = false → (s.procs p).ingest.finished = true) → WriterClean own p db (s.act U size db a) := by
    intro pc h1 h2 e h3
    refine ⟨?_, ?_, ?_⟩
    · rw [e]; exact fun _ h => h3 h
    · rw [e]; intro _ h; dsimp only at h; rw [h1] at h; cases h
    · rw [e]; intro v _ h; exact absurd h (h2 v)
  cases proc_change (U := U) (size := size) (db := db) (p := p) s a with
  | same hne e => exact keep _ e rfl rfl rfl rfl (less_open hs a (fun clock pick ea ha _ _ => by rw [hne clock pick ea] at ha; cases ha))
  | crash ea e => exact keep _ e rfl rfl rfl rfl (less_open hs a (fun _ _ ea' => by rw [ea] at ea'; cases ea'))
  | raise ea e =>
    have hl := less_open (U := U) (size := size) (db := db) hs a (fun _ _ ea' => by rw [ea] at ea'; cases ea')
    by_cases h1 : (s.procs p).pc.ended = true
    · have : (s.procs p).raise = s.procs p := by simp only [Writer.raise, h1, if_true]
      rw [this] at e
      exact keep _ e rfl rfl rfl rfl hl
    · by_cases h2 : (s.procs p).pc.inside = true
      · have : (s.procs p).raise = { s.procs p with pc := .raising } := by simp only [Writer.raise, h1, h2, if_true, Bool.false_eq_true, if_false]
        rw [this] at e
        exact endp (pc := .raising) rfl (by intro _ h; cases h) e (fun _ => h.fin (by intro e; rw [e] at h2; cases h2) (by simpa using h1))
      · have : (s.procs p).raise = { s.procs p with pc := .failed } := by simp only [Writer.raise, h1, h2, Bool.false_eq_true, if_false]
        rw [this] at e
        exact endp (pc := .failed) rfl (by intro _ h; cases h) e (fun h => Bool.noConfusion h)
  | step clock pick ea ha hst =>
    have hl := fun hn => less_open (U := U) (size := size) (db := db) hs a (fun _ _ _ _ => hn)
    have hl2 : (s.procs p).ingest.finished = true → _ := fun hf => hl (fun h => by rw [hf] at h; cases h)
    generalize hm : (s.act U size db a).mongo = m' at *
    generalize hw : (s.act U size db a).procs p = w' at *
    cases hst with
    | same he => exact keep _ rfl rfl rfl rfl rfl (hl (fun _ h => by rw [he] at h; cases h))
    | failed _ _ => exact endp (pc := .failed) rfl (by intro _ h; cases h) rfl (fun h => Bool.noConfusion h)
    | returns _ hf hc =>
      refine ⟨?_, ?_, ?_⟩ <;> (rw [hw]; try rw [hm])
      · exact fun _ h => Bool.noConfusion h
      · intro h; dsimp only at h; rw [hc] at h; cases h
      · exact fun _ _ h => Pc.noConfusion h
    | ingest he hf =>
      have hacq : (s.procs p).pc = .acquire := by
        apply Classical.byContradiction
        intro hne
        rw [h.fin hne he] at hf
        cases hf
      refine ⟨?_, ?_, ?_⟩ <;> (rw [hw]; dsimp only; rw [hacq])
      · exact fun h => absurd rfl h
      · exact fun _ h => Bool.noConfusion h
      · exact fun _ _ h => Pc.noConfusion h
    | locked hf hc hpc hl => exact endp (pc := .locked) rfl (by intro _ h; cases h) rfl (fun _ => hf)
    | acquire hf hc hpc hl => exact endp (pc := .checkData) rfl (by intro _ h; cases h) rfl (fun _ => hf)
    | release hf hc r hpc =>
      refine ⟨?_, ?_, ?_⟩ <;> (rw [hw]; try rw [hm])
      · exact fun _ h => Bool.noConfusion h
      · exact fun _ _ d hd hv => h.clean hc (by rw [hpc]; rfl) d (hl2 hf d hd hv) hv
      · exact fun _ _ h => Pc.noConfusion h
    | raising hf hc hpc => exact endp (pc := .failed) rfl (by intro _ h; cases h) rfl (fun _ => hf)
    | noData hf hc hpc hd =>
      refine ⟨?_, ?_, ?_⟩ <;> (rw [hw]; try rw [hm])
      · exact fun _ _ => hf
      · exact fun _ _ d hd' hv => hasUncommittedData_false hd d (mem_ownDocs.1 (hl2 hf d hd' hv)).1 hv
      · exact fun _ _ h => Pc.noConfusion h
    | nothing hf hc hpc =>
      refine ⟨?_, ?_, ?_⟩ <;> (rw [hw]; try rw [hm])
      · exact fun _ _ => hf
      · exact fun _ _ d hd hv => h.clean hc (by rw [hpc]; rfl) d (hl2 hf d hd hv) hv
      · exact fun _ _ h => Pc.noConfusion h
    | options hf hc os pc hi h1 h2 h3 h4 hpc =>
      refine endp ?_ ?_ rfl (fun _ => hf)
      · rcases hpc with rfl | rfl | rfl | ⟨l, rfl | rfl | rfl⟩ | rfl <;> rfl
      · rcases hpc with rfl | rfl | rfl | ⟨l, rfl | rfl | rfl⟩ | rfl <;> exact fun _ => nofun
    | clock hf hc hpc =>
      refine ⟨?_, ?_, ?_⟩ <;> (rw [hw]; try rw [hm])
      · exact fun _ _ => hf
      · exact fun _ h => Bool.noConfusion h
      · intro _ _ _ h; cases h
    | begin hf hc v hpc =>
      refine ⟨?_, ?_, ?_⟩ <;> (rw [hw]; try rw [hm])
      · exact fun _ _ => hf
      · intro _ h; dsimp only at h; rw [hpc] at h; cases h
      · intro v' ids _ e d hd hv
        injection e with e
        rw [← e]
        exact mem_uncommittedIds (mem_ownDocs.1 (hl2 hf d hd hv)).1 hv
    | data hf hc v k hpc => exact keep _ rfl rfl rfl rfl rfl (hl2 hf)
    | wait hf hc v hpc => exact keep _ rfl rfl rfl rfl rfl (hl2 hf)
    | dataEnd hf hc v ids hpc ht he =>
      refine ⟨?_, ?_, ?_⟩ <;> (rw [hw]; try rw [hm])
      · exact fun _ _ => hf
      · intro _ _ d hd hv
        have := hl2 hf d hd hv
        exact he _ (h.todo v ids hpc ht d this hv) (mem_uncommittedIds (mem_ownDocs.1 this).1 hv)
      · exact fun _ _ h => Pc.noConfusion h
    | optionsData hf hc v os hpc => exact keep _ rfl rfl rfl rfl rfl (hl2 hf)
    | optionsEnd hf hc v hpc =>
      refine ⟨?_, ?_, ?_⟩ <;> (rw [hw]; try rw [hm])
      · exact fun _ _ => hf
      · exact fun _ _ d hd hv => h.clean hc (by rw [hpc]; rfl) d (hl2 hf d hd hv) hv
      · exact fun _ _ h => Pc.noConfusion h

end Splitgill
