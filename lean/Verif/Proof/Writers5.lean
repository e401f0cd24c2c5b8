import Verif.Proof.Writers4
/-!
# Proofs about processes that ingest and commit: what a commit returns
-/

namespace Splitgill

variable {U : Unicode} {size : Nat} {db : PyStr} {own : PyStr → Bool} {p : Nat}

/-- The version a commit gives. -/
def Pc.version? : Pc → Option Int
  | .data v => some v
  | .options v => some v
  | .release r => r
  | .done r => r
  | _ => none

/-- The version a process gives after an action, if it can still return, is the one before, or that of the clock. -/
theorem version_change {s : WritersState} (a : WriterAct) {v : Int} (hv : ((s.act U size db a).procs p).pc.version? = some v)
    (ha : ((s.act U size db a).procs p).alive = true ∨ ((s.act U size db a).procs p).pc.ended = true) :
    ((s.procs p).pc.version? = some v ∧ ((s.procs p).alive = true ∨ (s.procs p).pc.ended = true)) ∨
      ∃ pick, a = .step p v pick ∧ (s.procs p).alive = true ∧ (s.procs p).pc = .clock ∧ ((s.act U size db a).procs p).pc = .data v := by
  cases proc_change (U := U) (size := size) (db := db) (p := p) s a with
  | same _ e => rw [e] at hv ha; exact .inl ⟨hv, ha⟩
  | crash _ e =>
    rw [e] at hv ha
    rcases ha with ha | ha
    · cases ha
    · exact .inl ⟨hv, .inr ha⟩
  | raise _ e =>
    rw [e] at hv ha
    simp only [Writer.raise] at hv ha
    split at hv
    · next h => rw [if_pos h] at ha; exact .inl ⟨hv, ha⟩
    · split at hv <;> cases hv
  | step clock pick ea al hst =>
    generalize (s.act U size db a).mongo = m' at *
    generalize hw : (s.act U size db a).procs p = w' at *
    cases hst with
    | clock _ _ hpc =>
      injection hv with hv
      subst hv
      exact .inr ⟨pick, ea, al, hpc, rfl⟩
    | same _ => exact .inl ⟨hv, .inl al⟩
    | failed _ _ => cases hv
    | returns _ _ _ => cases hv
    | ingest _ _ => exact .inl ⟨hv, .inl al⟩
    | locked _ _ _ _ => cases hv
    | acquire _ _ _ _ => cases hv
    | release _ _ r hpc => exact .inl ⟨by rw [hpc]; exact hv, .inl al⟩
    | raising _ _ _ => cases hv
    | noData _ _ _ _ => cases hv
    | nothing _ _ _ => cases hv
    | options _ _ os pc _ _ _ _ _ hpc => rcases hpc with rfl | rfl | rfl | ⟨l, rfl | rfl | rfl⟩ | rfl <;> cases hv
    | begin _ _ _ _ => exact .inl ⟨hv, .inl al⟩
    | data _ _ _ _ _ => exact .inl ⟨hv, .inl al⟩
    | wait _ _ _ _ => exact .inl ⟨hv, .inl al⟩
    | dataEnd _ _ v' _ hpc _ _ => exact .inl ⟨by rw [hpc]; exact hv, .inl al⟩
    | optionsData _ _ _ _ _ => exact .inl ⟨hv, .inl al⟩
    | optionsEnd _ _ v' hpc => exact .inl ⟨by rw [hpc]; exact hv, .inl al⟩

theorem version_inside {pc : Pc} {v : Int} (h : pc.version? = some v) (he : pc.ended = false) : pc.inside = true := by
  cases pc <;> simp_all [Pc.version?, Pc.ended, Pc.inside, Pc.dataDone]

theorem version_ended {pc : Pc} {v : Int} (h : pc.version? = some v) (he : pc.ended = true) : pc.dataDone = true := by
  cases pc <;> simp_all [Pc.version?, Pc.ended, Pc.inside, Pc.dataDone]

theorem version_acquire {pc : Pc} {v : Int} (h : pc.version? = some v) : pc ≠ .acquire := by
  rintro rfl; cases h

/-- All versions so far are at most what the clock shows, and those of the records of `p` at most the version it gives. -/
structure VersionBound (own : PyStr → Bool) (p : Nat) (db : PyStr) (T : Int) (s : WritersState) : Prop where
  all : (s.procs p).ingest.Versions (fun _ v => v ≤ T) (ownDocs own (s.mongo.data db))
  running : ∀ q v, (s.procs q).alive = true → (s.procs q).pc = .data v → v ≤ T
  res : ∀ v, (s.procs p).pc.version? = some v → ((s.procs p).alive = true ∨ (s.procs p).pc.ended = true) →
    ∀ d ∈ ownDocs own (s.mongo.data db), ∀ x, d.version = some x → x ≤ v

theorem running_act {s : WritersState} {T T' : Int} (h : ∀ q v, (s.procs q).alive = true → (s.procs q).pc = .data v → v ≤ T) (a : WriterAct) (hT : T ≤ T')
    (hc : ∀ t, a.clock? = some t → t ≤ T') : ∀ q v, ((s.act U size db a).procs q).alive = true → ((s.act U size db a).procs q).pc = .data v → v ≤ T' := by
  intro q v hal hpc
  rcases version_change (U := U) (size := size) (db := db) (p := q) (s := s) a (v := v) (by rw [hpc]; rfl) (.inl hal) with ⟨h1, h2⟩ | ⟨pick, ea, _⟩
  · cases proc_change (U := U) (size := size) (db := db) (p := q) s a with
    | same _ e => rw [e] at hal hpc; exact Int.le_trans (h q v hal hpc) hT
    | crash _ e => rw [e] at hal; cases hal
    | raise _ e =>
      rw [e] at hpc hal
      simp only [Writer.raise] at hpc
      split at hpc
      · exact Int.le_trans (h q v hal hpc) hT
      · split at hpc <;> cases hpc
    | step clock pick ea al hst =>
      generalize (s.act U size db a).mongo = m' at *
      generalize hw : (s.act U size db a).procs q = w' at *
      cases hst with
      | clock _ _ hpc' =>
        injection hpc with hpc
        subst hpc
        exact hc clock (by rw [ea]; rfl)
      | same _ => exact Int.le_trans (h q v al hpc) hT
      | failed _ _ => cases hpc
      | returns _ _ _ => cases hpc
      | ingest _ _ => exact Int.le_trans (h q v al hpc) hT
      | locked _ _ _ _ => cases hpc
      | acquire _ _ _ _ => cases hpc
      | release _ _ r _ => cases hpc
      | raising _ _ _ => cases hpc
      | noData _ _ _ _ => cases hpc
      | nothing _ _ _ => cases hpc
      | options _ _ os pc _ _ _ _ _ hpc' => rcases hpc' with rfl | rfl | rfl | ⟨l, rfl | rfl | rfl⟩ | rfl <;> cases hpc
      | begin _ _ _ _ => exact Int.le_trans (h q v al hpc) hT
      | data _ _ _ _ _ => exact Int.le_trans (h q v al hpc) hT
      | wait _ _ _ _ => exact Int.le_trans (h q v al hpc) hT
      | dataEnd _ _ v' _ _ _ _ => cases hpc
      | optionsData _ _ _ _ _ => exact Int.le_trans (h q v al hpc) hT
      | optionsEnd _ _ v' _ => cases hpc
  · exact hc v (by rw [ea]; rfl)

theorem VersionBound.act {s : WritersState} {T T' : Int} (hl : WritersLock db s) (hs : s.Split own p) (hcl : WriterClean own p db s)
    (hdc : (s.procs p).doCommit = true) (h : VersionBound own p db T s) (a : WriterAct) (hT : T ≤ T') (hc : ∀ t, a.clock? = some t → t ≤ T' ∧ T' ≤ t) :
    VersionBound own p db T' (s.act U size db a) := by
  have hall : ((s.act U size db a).procs p).ingest.Versions (fun _ v => v ≤ T') (ownDocs own ((s.act U size db a).mongo.data db)) :=
    versions_act hs a (h.all.mono fun _ v hv => Int.le_trans hv hT) (fun q clock pick v _ ha hpc _ => Int.le_trans (h.running q v ha hpc) hT)
  refine ⟨hall, running_act h.running a hT (fun t ht => (hc t ht).1), ?_⟩
  intro v hv ha d hd x hx
  rcases version_change (U := U) (size := size) (db := db) a hv ha with ⟨h1, h2⟩ | ⟨pick, ea, _⟩
  · have hres := h.res v h1 h2
    cases own_change (U := U) (size := size) (db := db) hs a with
    | none e _ => rw [e] at hd; exact hres d hd x hx
    | ingest clock pick ea al hf he _ _ =>
      exfalso
      rw [hcl.fin (version_acquire h1) he] at hf
      cases hf
    | version q clock pick v' k ea hq al e _ =>
      rw [e, mem_ownDocs] at hd
      rcases commitNth_mem hd.1 with h3 | ⟨d0, h3, h4, rfl⟩
      · exact hres d (mem_ownDocs.2 ⟨h3, hd.2⟩) x hx
      · injection hx with hx
        subst hx
        cases he : (s.procs p).pc.ended with
        | true => exact absurd h4 (hcl.clean hdc (version_ended h1 he) d0 (mem_ownDocs.2 ⟨h3, hd.2⟩))
        | false =>
          have hp : s.Holds p := ⟨h2.resolve_right (by rw [he]; exact Bool.noConfusion), version_inside h1 he⟩
          have e := hl.unique q p ⟨al, by rw [hq]; rfl⟩ hp
          subst e
          rw [hq] at h1
          injection h1 with h1
          exact Int.le_of_eq h1
  · have h3 := hall.docs d hd x (.inl hx)
    have := hc v (by rw [ea]; rfl)
    exact Int.le_trans h3 this.2

/-! ## One version for all -/

/-- The process has not raised. -/
def Pc.okay : Pc → Bool
  | .raising => false
  | .failed => false
  | .locked => false
  | _ => true

theorem version_kept {s : WritersState} (a : WriterAct) (hdc : (s.procs p).doCommit = true) (h : ((s.act U size db a).procs p).pc.okay = true) :
    (s.procs p).pc.okay = true ∧ ∀ x, (s.procs p).pc.version? = some x → ((s.act U size db a).procs p).pc.version? = some x := by
  cases proc_change (U := U) (size := size) (db := db) (p := p) s a with
  | same _ e => rw [e] at h ⊢; exact ⟨h, fun _ h => h⟩
  | crash _ e => rw [e] at h ⊢; exact ⟨h, fun _ h => h⟩
  | raise _ e =>
    rw [e] at h ⊢
    simp only [Writer.raise] at h ⊢
    split at h
    · next h1 => rw [if_pos h1]; exact ⟨h, fun _ h => h⟩
    · split at h <;> cases h
  | step clock pick ea al hst =>
    generalize (s.act U size db a).mongo = m' at *
    generalize hw : (s.act U size db a).procs p = w' at *
    cases hst with
    | clock _ _ hpc => rw [hpc]; exact ⟨rfl, fun _ h => nomatch h⟩
    | same _ => exact ⟨h, fun _ h => h⟩
    | failed _ _ => cases h
    | returns he hf hc =>
      rw [hdc] at hc
      cases hc
    | ingest _ _ => exact ⟨h, fun _ h => h⟩
    | locked _ _ _ _ => cases h
    | acquire _ _ hpc _ => rw [hpc]; exact ⟨rfl, fun _ h => nomatch h⟩
    | release _ _ r hpc => rw [hpc]; exact ⟨rfl, fun _ h => h⟩
    | raising _ _ _ => cases h
    | noData _ _ hpc _ => rw [hpc]; exact ⟨rfl, fun _ h => nomatch h⟩
    | nothing _ _ hpc => rw [hpc]; exact ⟨rfl, fun _ h => nomatch h⟩
    | options _ _ os pc hi h1 h2 h3 h4 hpc =>
      generalize (s.procs p).pc = pc' at *
      cases pc' with
      | data v => exact absurd rfl (h1 v)
      | options v => exact absurd rfl (h2 v)
      | release r => exact absurd rfl (h3 r)
      | raising => exact absurd rfl h4
      | acquire => cases hi
      | done _ => cases hi
      | locked => cases hi
      | failed => cases hi
      | _ => exact ⟨rfl, fun _ h => nomatch h⟩
    | begin _ _ _ _ => exact ⟨h, fun _ h => h⟩
    | data _ _ _ _ _ => exact ⟨h, fun _ h => h⟩
    | wait _ _ _ _ => exact ⟨h, fun _ h => h⟩
    | dataEnd _ _ v' _ hpc _ _ => rw [hpc]; exact ⟨rfl, fun _ h => h⟩
    | optionsData _ _ _ _ _ => exact ⟨h, fun _ h => h⟩
    | optionsEnd _ _ v' hpc => rw [hpc]; exact ⟨rfl, fun _ h => h⟩

theorem doCommit_act {s : WritersState} (a : WriterAct) : ((s.act U size db a).procs p).doCommit = (s.procs p).doCommit := by
  cases proc_change (U := U) (size := size) (db := db) (p := p) s a with
  | same _ e => rw [e]
  | crash _ e => rw [e]
  | raise _ e => rw [e]; rfl
  | step clock pick ea al hst =>
    generalize (s.act U size db a).mongo = m' at *
    generalize hw : (s.act U size db a).procs p = w' at *
    cases hst <;> rfl

/-- As long as nobody else gives versions, the versions of the records of `p` are old ones, or the one it gives. -/
def VersionSame (own : PyStr → Bool) (p : Nat) (db : PyStr) (old : PyStr → Int → Prop) (s : WritersState) : Prop :=
  (s.procs p).pc.okay = true → (s.procs p).ingest.Versions (fun id x => old id x ∨ (s.procs p).pc.version? = some x) (ownDocs own (s.mongo.data db))

theorem VersionSame.act {old : PyStr → Int → Prop} {s : WritersState} (hs : s.Split own p) (hdc : (s.procs p).doCommit = true)
    (h : VersionSame own p db old s) (a : WriterAct) (hc : ∀ q clock pick, a = .step q clock pick → q ≠ p → ∀ v, (s.procs q).pc ≠ .data v) :
    VersionSame own p db old (s.act U size db a) := by
  intro hk
  obtain ⟨h1, h2⟩ := version_kept a hdc hk
  refine (versions_act hs a (h h1) ?_).mono (fun id x hx => hx.imp_right (h2 x))
  intro q clock pick v ea _ hpc id
  by_cases e : q = p
  · subst e
    rw [hpc]
    exact .inr rfl
  · exact absurd hpc (hc q clock pick ea e v)

end Splitgill
