import Verif.Proof.Procs
/-!
# Schedules of lookups and writes in which the processes keep off each other's records
-/

namespace Splitgill

variable {own : PyStr → Bool}

/-- The operations process `p` has not written yet. -/
def opsOfProc (p : Nat) (l : List (Nat × MongoOp)) : List MongoOp :=
  (l.filter (fun x => decide (x.1 = p))).map Prod.snd

theorem opsOfProc_append (p : Nat) (a b : List (Nat × MongoOp)) : opsOfProc p (a ++ b) = opsOfProc p a ++ opsOfProc p b := by
  simp [opsOfProc]

theorem opsOfProc_same (p : Nat) (ops : List MongoOp) : opsOfProc p (ops.map (fun o => (p, o))) = ops := by
  induction ops with
  | nil => rfl
  | cons o ops ih => simpa [opsOfProc] using ih

theorem opsOfProc_diff {p q : Nat} (h : q ≠ p) (ops : List MongoOp) : opsOfProc p (ops.map (fun o => (q, o))) = [] := by
  induction ops with
  | nil => rfl
  | cons o ops ih => simpa [opsOfProc, h] using ih

theorem opsOfProc_drop_same (p : Nat) (l : List (Nat × MongoOp)) : opsOfProc p (dropOps p l) = [] := by
  induction l with
  | nil => rfl
  | cons x l ih =>
    simp only [opsOfProc, dropOps] at ih ⊢
    by_cases h : x.1 = p
    · simpa [h] using ih
    · simpa [h] using ih

theorem opsOfProc_drop_diff {p q : Nat} (h : q ≠ p) (l : List (Nat × MongoOp)) : opsOfProc p (dropOps q l) = opsOfProc p l := by
  induction l with
  | nil => rfl
  | cons x l ih =>
    simp only [opsOfProc, dropOps] at ih ⊢
    rw [List.filter_cons]
    by_cases hq : x.1 = q
    · have hp : x.1 ≠ p := fun e => h (hq.symm.trans e)
      rw [if_neg (by simpa using hq), ih, List.filter_cons_of_neg (by simpa using hp)]
    · rw [if_pos (by simpa using hq), List.filter_cons, List.filter_cons]
      split
      · rw [List.map_cons, ih, List.map_cons]
      · exact ih

theorem takeOp_some {p : Nat} : ∀ {l : List (Nat × MongoOp)} {o : MongoOp} {rest}, takeOp p l = some (o, rest) →
    opsOfProc p l = o :: opsOfProc p rest ∧ (∀ q, q ≠ p → opsOfProc q rest = opsOfProc q l) ∧ (p, o) ∈ l ∧ ∀ x ∈ rest, x ∈ l
  | [], _, _, h => nomatch h
  | (q, x) :: l, o, rest, h => by
    rw [takeOp] at h
    split at h
    · next e =>
      subst e
      cases h
      refine ⟨by simp [opsOfProc], fun r hr => by simp [opsOfProc, Ne.symm hr], by simp, fun y hy => by simp [hy]⟩
    · next e =>
      cases h1 : takeOp p l with
      | none => rw [h1] at h; cases h
      | some r =>
        obtain ⟨o', rest'⟩ := r
        rw [h1] at h
        cases h
        obtain ⟨k1, k2, k3, k4⟩ := takeOp_some h1
        refine ⟨?_, ?_, by simp [k3], ?_⟩
        · simp only [opsOfProc] at k1 ⊢
          rw [List.filter_cons_of_neg (by simpa using e), List.filter_cons_of_neg (by simpa using e)]
          exact k1
        · intro r hr
          have := k2 r hr
          simp only [opsOfProc] at this ⊢
          rw [List.filter_cons, List.filter_cons]
          split
          · rw [List.map_cons, this, List.map_cons]
          · exact this
        · intro y hy
          rcases List.mem_cons.1 hy with rfl | hy
          · simp
          · simp [k4 y hy]

theorem takeOp_none {p : Nat} : ∀ {l : List (Nat × MongoOp)}, takeOp p l = none → opsOfProc p l = []
  | [], _ => rfl
  | (q, x) :: l, h => by
    rw [takeOp] at h
    split at h
    · cases h
    · next e =>
      simp only [Option.map_eq_none_iff] at h
      have := takeOp_none h
      simp only [opsOfProc] at this ⊢
      rw [List.filter_cons_of_neg (by simpa using e)]
      exact this

theorem mem_opsOfProc {p : Nat} {o : MongoOp} {l : List (Nat × MongoOp)} : o ∈ opsOfProc p l ↔ (p, o) ∈ l := by
  simp only [opsOfProc, List.mem_map, List.mem_filter, decide_eq_true_eq, Prod.exists]
  exact ⟨fun ⟨a, b, ⟨h, e⟩, e'⟩ => by subst e e'; exact h, fun h => ⟨p, o, ⟨h, rfl⟩, rfl⟩⟩

/-- The unwritten operations of `p` are on records in `own`, those of the others are not. -/
def OpsSplit (own : PyStr → Bool) (p : Nat) (st : ConcState) : Prop :=
  ∀ x ∈ st.unwritten, own x.2.id = decide (x.1 = p)

/-- An action likewise. -/
def ActSplit (own : PyStr → Bool) (p : Nat) : ConcAct → Prop
  | .lookup q _ chunk => ∀ r ∈ chunk, own r.id = decide (q = p)
  | .lookupRollback _ => False
  | _ => True

theorem OpsSplit.act {p : Nat} {st : ConcState} (h : OpsSplit own p st) {U : Unicode} {a : ConcAct} (ha : ActSplit own p a) :
    OpsSplit own p (st.act U a) := by
  cases a with
  | lookupRollback q => exact ha.elim
  | commit v done => exact h
  | stop q =>
    intro x hx
    exact h x (List.mem_of_mem_filter hx)
  | write q =>
    intro x hx
    simp only [ConcState.act] at hx
    split at hx
    · exact h x hx
    · next o rest e => exact h x ((takeOp_some e).2.2.2 x hx)
  | lookup q mf chunk =>
    intro x hx
    simp only [ConcState.act] at hx
    cases e : chunkOps U mf st.coll chunk with
    | error er =>
      rw [e] at hx
      exact h x (List.mem_of_mem_filter hx)
    | ok ops =>
      rw [e] at hx
      rcases List.mem_append.1 hx with hx | hx
      · exact h x hx
      · obtain ⟨o, ho, rfl⟩ := List.mem_map.1 hx
        obtain ⟨r, hr, e⟩ := chunkOps_ids e o ho
        dsimp only
        rw [← e]
        exact ha r hr

/-- The process has the same unwritten operations and sees the same documents. -/
structure SameOps (own : PyStr → Bool) (p : Nat) (st st' : ConcState) : Prop where
  coll : ownDocs own st.coll = ownDocs own st'.coll
  ops : opsOfProc p st.unwritten = opsOfProc p st'.unwritten

theorem SameOps.run {p : Nat} (U : Unicode) : ∀ (acts : List ConcAct) {st st' : ConcState}, OpsSplit own p st →
    (∀ a ∈ acts, ActSplit own p a) → SameOps own p st st' →
    SameOps own p (st.run U acts) (st'.run U (acts.filter (ConcAct.ofOrCommit p)))
  | [], _, _, _, _, h => h
  | a :: acts, st, st', hs, ha, h => by
    have haa := ha a (by simp)
    have hs' := hs.act (U := U) haa
    have go : ∀ {st1 : ConcState}, SameOps own p (st.act U a) st1 →
      SameOps own p ((st.act U a).run U acts) (st1.run U (acts.filter (ConcAct.ofOrCommit p))) :=
      fun h1 => SameOps.run U acts hs' (fun b hb => ha b (by simp [hb])) h1
    cases a with
    | lookupRollback q => exact haa.elim
    | commit v done =>
      rw [List.filter_cons_of_pos rfl]
      refine go ⟨?_, h.ops⟩
      simp only [ConcState.act]
      rw [commitCrash_own, h.coll, commitCrash_own]
    | stop q =>
      by_cases e : q = p
      · subst e
        rw [List.filter_cons_of_pos (by simp [ConcAct.ofOrCommit])]
        refine go ⟨h.coll, ?_⟩
        simp only [ConcState.act]
        rw [opsOfProc_drop_same, opsOfProc_drop_same]
      · rw [List.filter_cons_of_neg (by simp [ConcAct.ofOrCommit, e])]
        refine go ⟨h.coll, ?_⟩
        simp only [ConcState.act]
        rw [opsOfProc_drop_diff e, h.ops]
    | write q =>
      by_cases e : q = p
      · subst e
        rw [List.filter_cons_of_pos (by simp [ConcAct.ofOrCommit])]
        refine go ?_
        have ho := h.ops
        simp only [ConcState.act]
        cases h1 : takeOp q st.unwritten with
        | none =>
          rw [takeOp_none h1] at ho
          cases h2 : takeOp q st'.unwritten with
          | none => exact h
          | some r => rw [(takeOp_some h2).1] at ho; cases ho
        | some r =>
          obtain ⟨o, rest⟩ := r
          rw [(takeOp_some h1).1] at ho
          cases h2 : takeOp q st'.unwritten with
          | none => rw [takeOp_none h2] at ho; cases ho
          | some r' =>
            obtain ⟨o', rest'⟩ := r'
            rw [(takeOp_some h2).1] at ho
            injection ho with e1 e2
            subst e1
            have hown : own o.id = true := by simpa using hs _ (takeOp_some h1).2.2.1
            refine ⟨?_, e2⟩
            dsimp only
            rw [applyOp_own _ hown, applyOp_own _ hown, h.coll]
      · rw [List.filter_cons_of_neg (by simp [ConcAct.ofOrCommit, e])]
        refine go ?_
        simp only [ConcState.act]
        cases h1 : takeOp q st.unwritten with
        | none => exact h
        | some r =>
          obtain ⟨o, rest⟩ := r
          obtain ⟨_, k2, k3, _⟩ := takeOp_some h1
          have hown : own o.id = false := by simpa [e] using hs _ k3
          refine ⟨?_, ?_⟩
          · dsimp only
            rw [applyOp_other _ hown, h.coll]
          · dsimp only
            rw [k2 p (Ne.symm e), h.ops]
    | lookup q mf chunk =>
      by_cases e : q = p
      · subst e
        rw [List.filter_cons_of_pos (by simp [ConcAct.ofOrCommit])]
        refine go ⟨h.coll, ?_⟩
        simp only [ConcState.act]
        have hch : ∀ r ∈ chunk, own r.id = true := fun r hr => by simpa using haa r hr
        rw [← chunkOps_own hch st.coll, ← chunkOps_own hch st'.coll, h.coll]
        cases chunkOps U mf (ownDocs own st'.coll) chunk with
        | error er => simp only [addOps]; rw [opsOfProc_drop_same, opsOfProc_drop_same]
        | ok ops => simp only [addOps]; rw [opsOfProc_append, opsOfProc_append, h.ops]
      · rw [List.filter_cons_of_neg (by simp [ConcAct.ofOrCommit, e])]
        refine go ⟨h.coll, ?_⟩
        simp only [ConcState.act]
        cases chunkOps U mf st.coll chunk with
        | error er => simp only [addOps]; rw [opsOfProc_drop_diff e, h.ops]
        | ok ops => simp only [addOps]; rw [opsOfProc_append, opsOfProc_diff e, List.append_nil, h.ops]

theorem docsWith_own {id : PyStr} {c c' : Coll} (hid : own id = true) (h : ownDocs own c = ownDocs own c') :
    docsWith id c = docsWith id c' := by
  have : ∀ c : Coll, docsWith id c = docsWith id (ownDocs own c) := by
    intro c
    unfold docsWith ownDocs
    rw [List.filter_filter]
    apply List.filter_congr
    intro d _
    by_cases e : d.id = id
    · simp [e, hid]
    · simp [e]
  rw [this c, this c', h]

end Splitgill
