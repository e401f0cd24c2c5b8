import Verif.Proof.PatchHeap2
import Verif.Spec.Value
/-!
# `patch` on the heap does what `patch` on values does: the ops
-/

namespace Splitgill.Heap
open Splitgill

/-- `RP` for objects. -/
def RPObj (h : Heap) (P : Nat → Prop) : Obj → Value → Prop
  | .dict d, .dict dv => RPItems h P d dv
  | .list l, .list lv => RPElems h P l lv
  | _, _ => False

/-- The container at an address stands for a value. -/
def Cont (h : Heap) (P : Nat → Prop) (t : Nat) (v : Value) : Prop := ∃ o, h[t]? = some o ∧ RPObj h P o v

/-- Only one container is changed. -/
def Only (t : Nat) (h h' : Heap) : Prop := h'.length = h.length ∧ ∀ a, a ≠ t → h'[a]? = h[a]?

theorem Only.refl (t : Nat) (h : Heap) : Only t h h := ⟨rfl, fun _ _ => rfl⟩
theorem Only.trans {t : Nat} {h h' h'' : Heap} (a : Only t h h') (b : Only t h' h'') : Only t h h'' :=
  ⟨b.1.trans a.1, fun x hx => (b.2 x hx).trans (a.2 x hx)⟩

theorem RPObj.frame {h h' : Heap} {P Q : Nat → Prop} (hf : ∀ a, P a → Q a ∧ h'[a]? = h[a]?) {o : Obj} {v : Value} (hr : RPObj h P o v) :
    RPObj h' Q o v := by
  cases o <;> cases v <;> first
    | exact hr.elim
    | exact RPItems.frame hf _ _ hr
    | exact RPElems.frame hf _ _ hr

variable {P : Nat → Prop} {t : Nat}

theorem Only.keeps {h h' : Heap} (ho : Only t h h') (ht : ¬ P t) : ∀ a, P a → P a ∧ h'[a]? = h[a]? :=
  fun a ha => ⟨ha, ho.2 a (fun e => ht (e ▸ ha))⟩

theorem only_set {h : Heap} (o : Obj) : Only t h (h.set t o) :=
  ⟨by simp, fun a ha => List.getElem?_set_ne (fun e => ha e.symm)⟩

theorem cont_set {h : Heap} {o o' : Obj} {v : Value} (hg : h[t]? = some o) (ht : ¬ P t) (hr : RPObj h P o' v) :
    Cont (h.set t o') P t v :=
  ⟨o', List.getElem?_set_self (List.getElem?_eq_some_iff.1 hg).1, hr.frame ((only_set o').keeps ht)⟩

/-- A step on the heap and one on values. -/
def Agrees (h : Heap) (P : Nat → Prop) (t : Nat) (r : Res Unit) (x : Except PyErr Value) : Prop :=
  match x with
  | .ok v => ∃ h', r = (h', .ok ()) ∧ Cont h' P t v ∧ Only t h h'
  | .error e => r.2 = .error e

theorem Agrees.andThen {h : Heap} {r : Res Unit} {v : Value} {f : Heap → Unit → Res Unit} {x : Except PyErr Value}
    (hr : Agrees h P t r (.ok v)) (hf : ∀ h', Only t h h' → Cont h' P t v → Agrees h' P t (f h' ()) x) : Agrees h P t (r.andThen f) x := by
  obtain ⟨h', e, hc, ho⟩ := hr
  rw [e]
  have := hf h' ho hc
  cases x with
  | error e => exact this
  | ok v' =>
    obtain ⟨h'', e, hc, ho'⟩ := this
    exact ⟨h'', e, hc, ho.trans ho'⟩

theorem Agrees.error {h : Heap} {r : Res Unit} {e : PyErr} {f : Heap → Unit → Res Unit} (hr : Agrees h P t r (.error e)) :
    Agrees h P t (r.andThen f) (.error e) := by
  obtain ⟨h', y⟩ := r
  have : y = .error e := hr
  subst this
  rfl

/-- `ReadsOps`, with all addresses in `P`. -/
structure RPOps (h : Heap) (P : Nat → Prop) (o : HOps) (ov : Ops) : Prop where
  dc : Both (fun r d => RP h P r (.dict d)) o.dc ov.dc
  dn : Both (fun r d => RP h P r (.dict d)) o.dn ov.dn
  dd : o.dd = ov.dd
  lc : Both (List.Forall₂ (fun a b => a.1 = b.1 ∧ RP h P a.2 b.2)) o.lc ov.lc
  ln : Both (fun r l => RP h P r (.list l)) o.ln ov.ln
  ld : o.ld = ov.ld

theorem Both.mono {α β : Type} {R S : α → β → Prop} (hRS : ∀ a b, R a b → S a b) {a : Option α} {b : Option β} (h : Both R a b) :
    Both S a b := by
  cases a <;> cases b <;> first | exact h | exact hRS _ _ h

theorem RPOps.frame {h h' : Heap} {P Q : Nat → Prop} (hf : ∀ a, P a → Q a ∧ h'[a]? = h[a]?) {o : HOps} {ov : Ops} (hr : RPOps h P o ov) :
    RPOps h' Q o ov where
  dc := hr.dc.mono (fun r d => RP.frame hf _ r)
  dn := hr.dn.mono (fun r d => RP.frame hf _ r)
  dd := hr.dd
  lc := hr.lc.mono (fun a b hab => hab.imp (fun _ _ h => ⟨h.1, RP.frame hf _ _ h.2⟩))
  ln := hr.ln.mono (fun r d => RP.frame hf _ r)
  ld := hr.ld

/-! ### Steps on dicts -/

theorem update_dict {h : Heap} (ht : ¬ P t) {dv : Dict} (hc : Cont h P t (.dict dv)) {r : Option Ref} {d : Option Dict}
    (hr : Both (fun r d => RP h P r (.dict d)) r d) : Agrees h P t (update h t r) (.ok (.dict (updateIf dv d))) := by
  cases r with
  | none =>
    cases d with
    | none => exact ⟨h, rfl, hc, .refl _ _⟩
    | some d => exact hr.elim
  | some r =>
    cases d with
    | none => exact hr.elim
    | some d =>
      have hr : RP h P r (.dict d) := hr
      rw [RP] at hr
      obtain ⟨e, es, rfl, he, hg, hi⟩ := hr
      obtain ⟨o, ho, hro⟩ := hc
      cases o with
      | list l => exact hro.elim
      | dict d0 =>
        refine ⟨h.set t (.dict (aupdate d0 es)), ?_, cont_set ho ht ?_, only_set _⟩
        · simp only [update, ho, hg]
        · exact rpItems_iff.2 (sameKeys_aupdate (rpItems_iff.1 hi) (rpItems_iff.1 hro))

theorem delKeys_dict (ht : ¬ P t) : ∀ (ks : List PyStr) (h : Heap) (dv : Dict), Cont h P t (.dict dv) →
    Agrees h P t (delKeys h t ks) ((Splitgill.delKeys ks dv).map Value.dict)
  | [], h, dv, hc => ⟨h, rfl, hc, .refl _ _⟩
  | k :: ks, h, dv, hc => by
    obtain ⟨o, ho, hro⟩ := hc
    cases o with
    | list l => exact hro.elim
    | dict d0 =>
      have hk := sameKeys_ahas (rpItems_iff.1 hro) k
      rw [delKeys, ho, Splitgill.delKeys]
      dsimp only
      rw [hk]
      split
      · have hc' : Cont (h.set t (.dict (aerase k d0))) P t (.dict (aerase k dv)) :=
          cont_set ho ht (rpItems_iff.2 (sameKeys_aerase (rpItems_iff.1 hro) k))
        have := delKeys_dict ht ks _ _ hc'
        cases hx : Splitgill.delKeys ks (aerase k dv) with
        | error e => rw [hx] at this; exact this
        | ok d' =>
          rw [hx] at this
          obtain ⟨h', e, hc, ho'⟩ := this
          exact ⟨h', e, hc, (only_set _).trans ho'⟩
      · rfl

/-! ### Steps on lists -/

theorem setIndexes_list (ht : ¬ P t) : ∀ (cs : List (Nat × Ref)) (cv : List (Nat × Value)) (h : Heap) (lv : List Value), Cont h P t (.list lv) →
    List.Forall₂ (fun a b => a.1 = b.1 ∧ RP h P a.2 b.2) cs cv →
    Agrees h P t (setIndexes h t cs) ((Splitgill.setIndexes cv lv).map Value.list)
  | [], cv, h, lv, hc, hcs => by
    cases hcs
    exact ⟨h, rfl, hc, .refl _ _⟩
  | (i, r) :: cs, cv, h, lv, hc, hcs => by
    obtain ⟨⟨j, v⟩, cv', ⟨e, hv⟩, hcs', rfl⟩ := List.forall₂_cons_left_iff.1 hcs
    dsimp only at e hv
    subst e
    obtain ⟨o, ho, hro⟩ := hc
    cases o with
    | dict d => exact hro.elim
    | list l =>
      have hl := (rpElems_iff.1 hro).length_eq
      rw [setIndexes, ho, Splitgill.setIndexes]
      dsimp only
      rw [hl]
      split
      · have hc' : Cont (h.set t (.list (l.set i r))) P t (.list (lv.set i v)) :=
          cont_set ho ht (rpElems_iff.2 (forall₂_set (rpElems_iff.1 hro) hv i))
        have := setIndexes_list ht cs cv' _ _ hc'
          (hcs'.imp (fun _ _ h' => ⟨h'.1, RP.frame ((only_set _).keeps ht) _ _ h'.2⟩))
        cases hx : Splitgill.setIndexes cv' (lv.set i v) with
        | error e => rw [hx] at this; exact this
        | ok d' =>
          rw [hx] at this
          obtain ⟨h', e, hc, ho'⟩ := this
          exact ⟨h', e, hc, (only_set _).trans ho'⟩
      · rfl

theorem extend_list {h : Heap} (ht : ¬ P t) {lv : List Value} (hc : Cont h P t (.list lv)) {r : Option Ref} {d : Option (List Value)}
    (hr : Both (fun r d => RP h P r (.list d)) r d) : Agrees h P t (extend h t r) (.ok (.list (extendIf lv d))) := by
  cases r with
  | none =>
    cases d with
    | none => exact ⟨h, rfl, hc, .refl _ _⟩
    | some d => exact hr.elim
  | some r =>
    cases d with
    | none => exact hr.elim
    | some d =>
      have hr : RP h P r (.list d) := hr
      rw [RP] at hr
      obtain ⟨e, es, rfl, he, hg, hi⟩ := hr
      obtain ⟨o, ho, hro⟩ := hc
      cases o with
      | dict l => exact hro.elim
      | list l0 =>
        refine ⟨h.set t (.list (l0 ++ es)), ?_, cont_set ho ht ?_, only_set _⟩
        · simp only [extend, ho, hg]
        · exact rpElems_iff.2 (forall₂_append (rpElems_iff.1 hro) (rpElems_iff.1 hi))

theorem truncate_list {h : Heap} (ht : ¬ P t) {lv : List Value} (hc : Cont h P t (.list lv)) (n : Option Nat) :
    Agrees h P t (truncate h t n) (.ok (.list (truncIf lv n))) := by
  cases n with
  | none => exact ⟨h, rfl, hc, .refl _ _⟩
  | some n =>
    obtain ⟨o, ho, hro⟩ := hc
    cases o with
    | dict l => exact hro.elim
    | list l0 =>
      refine ⟨h.set t (.list (l0.take n)), ?_, cont_set ho ht ?_, only_set _⟩
      · simp only [truncate, ho]
      · exact rpElems_iff.2 (forall₂_take (rpElems_iff.1 hro) n)

/-! ### All steps -/

theorem both_none {α β : Type} {R : α → β → Prop} {a : Option α} (h : Both R a none) : a = none := by
  cases a <;> first | rfl | exact h.elim

theorem both_some {α β : Type} {R : α → β → Prop} {a : Option α} {b : β} (h : Both R a (some b)) : ∃ x, a = some x ∧ R x b := by
  cases a <;> first | exact h.elim | exact ⟨_, rfl, h⟩

theorem applyOps_agrees {h : Heap} (ht : ¬ P t) {v : Value} (hc : Cont h P t v) {o : HOps} {ov : Ops} (ho : RPOps h P o ov) :
    Agrees h P t (applyOps h t o) (Splitgill.applyOps ov v) := by
  unfold applyOps
  cases v with
  | dict dv =>
    rw [Splitgill.applyOps]
    refine (update_dict ht hc ho.dc).andThen (fun h1 h01 hc1 => ?_)
    have ho1 := ho.frame (h01.keeps ht)
    refine (update_dict ht hc1 ho1.dn).andThen (fun h2 h12 hc2 => ?_)
    have ho2 := ho1.frame (h12.keeps ht)
    have hdel := delKeys_dict ht (o.dd.getD []) h2 _ hc2
    have hdd : Splitgill.delKeys (o.dd.getD []) (updateIf (updateIf dv ov.dc) ov.dn) = delKeysIf (updateIf (updateIf dv ov.dc) ov.dn) ov.dd := by
      rw [ho.dd]
      cases ov.dd <;> rfl
    rw [hdd] at hdel
    cases hx : delKeysIf (updateIf (updateIf dv ov.dc) ov.dn) ov.dd with
    | error e =>
      rw [hx] at hdel
      simp only [bind, Except.bind]
      exact hdel.error
    | ok d' =>
      rw [hx] at hdel
      simp only [bind, Except.bind]
      refine Agrees.andThen hdel (fun h3 h23 hc3 => ?_)
      have ho3 := ho2.frame (h23.keeps ht)
      obtain ⟨ob, hob, hrob⟩ := hc3
      have hc3 : Cont h3 P t (.dict d') := ⟨ob, hob, hrob⟩
      cases ob with
      | list l => exact hrob.elim
      | dict d0 =>
        have hlc := ho3.lc
        split
        · rename_i c cs hcs
          rw [hcs] at hlc
          obtain ⟨x, ex, hx⟩ := both_some hlc
          obtain ⟨⟨i, r⟩, x', _, _, rfl⟩ := List.forall₂_cons_right_iff.1 hx
          rw [ex]
          refine Agrees.error ?_
          simp only [Agrees, Option.getD_some, setIndexes, hob]
        · rename_i hcs
          have hnil : o.lc.getD [] = [] := by
            cases hv : ov.lc with
            | none => rw [hv] at hlc; rw [both_none hlc]; rfl
            | some l =>
              cases l with
              | cons c cs => exact absurd hv (hcs c cs)
              | nil =>
                rw [hv] at hlc
                obtain ⟨x, ex, hx⟩ := both_some hlc
                cases hx
                rw [ex]; rfl
          rw [hnil]
          refine Agrees.andThen (v := .dict d') ⟨h3, rfl, hc3, .refl _ _⟩ (fun h4 h34 hc4 => ?_)
          have ho4 := ho3.frame (h34.keeps ht)
          obtain ⟨ob, hob, hrob⟩ := hc4
          have hc4 : Cont h4 P t (.dict d') := ⟨ob, hob, hrob⟩
          cases ob with
          | list l => exact hrob.elim
          | dict d0 =>
            have hln := ho4.ln
            split
            · rename_i l hl
              rw [hl] at hln
              obtain ⟨x, ex, hx⟩ := both_some hln
              rw [RP] at hx
              obtain ⟨a, l', rfl, _, ha, _⟩ := hx
              rw [ex]
              refine Agrees.error ?_
              simp only [Agrees, extend, hob, ha]
            · rename_i hl
              rw [hl] at hln
              rw [both_none hln]
              refine Agrees.andThen (v := .dict d') ⟨h4, rfl, hc4, .refl _ _⟩ (fun h5 h45 hc5 => ?_)
              obtain ⟨ob, hob, hrob⟩ := hc5
              have hc5 : Cont h5 P t (.dict d') := ⟨ob, hob, hrob⟩
              cases ob with
              | list l => exact hrob.elim
              | dict d0 =>
                rw [ho.ld]
                split
                · rename_i n hn
                  rw [hn]
                  simp only [Agrees, truncate, hob]
                · rename_i hn
                  rw [hn]
                  exact ⟨h5, rfl, hc5, .refl _ _⟩
  | list lv =>
    rw [Splitgill.applyOps]
    obtain ⟨ob, hob, hrob⟩ := hc
    have hc : Cont h P t (.list lv) := ⟨ob, hob, hrob⟩
    cases ob with
    | dict d => exact hrob.elim
    | list l0 =>
      have hdc := ho.dc
      split
      · rename_i d hd
        rw [hd] at hdc
        obtain ⟨x, ex, hx⟩ := both_some hdc
        rw [RP] at hx
        obtain ⟨a, l', rfl, _, ha, _⟩ := hx
        rw [ex]
        refine Agrees.error ?_
        simp only [Agrees, update, hob, ha]
      · rename_i hd
        rw [hd] at hdc
        rw [both_none hdc]
        refine Agrees.andThen (v := .list lv) ⟨h, rfl, hc, .refl _ _⟩ (fun h1 h01 hc1 => ?_)
        have ho1 := ho.frame (h01.keeps ht)
        obtain ⟨ob, hob, hrob⟩ := hc1
        have hc1 : Cont h1 P t (.list lv) := ⟨ob, hob, hrob⟩
        cases ob with
        | dict d => exact hrob.elim
        | list l0 =>
          have hdn := ho1.dn
          split
          · rename_i d hd
            rw [hd] at hdn
            obtain ⟨x, ex, hx⟩ := both_some hdn
            rw [RP] at hx
            obtain ⟨a, l', rfl, _, ha, _⟩ := hx
            rw [ex]
            refine Agrees.error ?_
            simp only [Agrees, update, hob, ha]
          · rename_i hd
            rw [hd] at hdn
            rw [both_none hdn]
            refine Agrees.andThen (v := .list lv) ⟨h1, rfl, hc1, .refl _ _⟩ (fun h2 h12 hc2 => ?_)
            have ho2 := ho1.frame (h12.keeps ht)
            obtain ⟨ob, hob, hrob⟩ := hc2
            have hc2 : Cont h2 P t (.list lv) := ⟨ob, hob, hrob⟩
            cases ob with
            | dict d => exact hrob.elim
            | list l0 =>
              rw [ho.dd]
              split
              · rename_i k ks hk
                refine Agrees.error ?_
                rw [hk]
                simp only [Agrees, Option.getD_some, delKeys, hob]
              · rename_i hk
                have hnil : ov.dd.getD [] = [] := by
                  cases hv : ov.dd with
                  | none => rfl
                  | some l =>
                    cases l with
                    | cons c cs => exact absurd hv (hk c cs)
                    | nil => rfl
                rw [hnil]
                refine Agrees.andThen (v := .list lv) ⟨h2, rfl, hc2, .refl _ _⟩ (fun h3 h23 hc3 => ?_)
                have ho3 := ho2.frame (h23.keeps ht)
                have hset : Agrees h3 P t (setIndexes h3 t (o.lc.getD [])) ((setIndexesIf lv ov.lc).map Value.list) := by
                  have hlc := ho3.lc
                  cases hv : ov.lc with
                  | none =>
                    rw [hv] at hlc
                    rw [both_none hlc]
                    exact ⟨h3, rfl, hc3, .refl _ _⟩
                  | some l =>
                    rw [hv] at hlc
                    obtain ⟨x, ex, hx⟩ := both_some hlc
                    rw [ex]
                    exact setIndexes_list ht x l h3 lv hc3 hx
                cases hx : setIndexesIf lv ov.lc with
                | error e =>
                  rw [hx] at hset
                  simp only [bind, Except.bind]
                  exact hset.error
                | ok l' =>
                  rw [hx] at hset
                  simp only [bind, Except.bind]
                  refine Agrees.andThen hset (fun h4 h34 hc4 => ?_)
                  have ho4 := ho3.frame (h34.keeps ht)
                  refine (extend_list ht hc4 ho4.ln).andThen (fun h5 h45 hc5 => ?_)
                  rw [ho.ld]
                  exact truncate_list ht hc5 ov.ld
  | _ =>
    obtain ⟨ob, _, hrob⟩ := hc
    cases ob <;> exact hrob.elim

/-! ### Walking down and the loop -/

theorem cont_rp {h : Heap} {P Q : Nat → Prop} {c : Nat} {v : Value} (hc : Cont h P c v) (hPQ : ∀ a, P a → Q a) (hq : Q c) :
    RP h Q (.addr c) v := by
  obtain ⟨o, ho, hr⟩ := hc
  have hr := RPObj.frame (h' := h) (fun a ha => ⟨hPQ a ha, rfl⟩) hr
  cases o <;> cases v <;> first
    | exact hr.elim
    | (rw [RP]; exact ⟨_, _, rfl, hq, ho, hr⟩)

/-- Containers in the heap, or scalars. -/
theorem rp_cases {h : Heap} {r : Ref} {v : Value} (hr : RP h P r v) :
    (∃ a o, r = .addr a ∧ P a ∧ h[a]? = some o ∧ RPObj h P o v) ∨ (r = .scalar v ∧ v.isScalar = true) := by
  cases v with
  | dict d => rw [RP] at hr; obtain ⟨a, d, e, h1, h2, h3⟩ := hr; exact .inl ⟨a, .dict d, e, h1, h2, h3⟩
  | list d => rw [RP] at hr; obtain ⟨a, d, e, h1, h2, h3⟩ := hr; exact .inl ⟨a, .list d, e, h1, h2, h3⟩
  | _ => exact .inr ⟨hr, rfl⟩

/-- The walk and the ops of one `DiffOp`. -/
def opAt (h : Heap) (t : Nat) (p : Path) (o : HOps) : Res Unit := (walk h t p).andThen fun h t' => applyOps h t' o

/-- What one `DiffOp` does. -/
def OpAgrees (h : Heap) (P : Nat → Prop) (t : Nat) (r : Res Unit) (x : Except PyErr Value) : Prop :=
  match x with
  | .ok v => ∃ h', r = (h', .ok ()) ∧ Cont h' (fun a => P a ∨ (h.length ≤ a ∧ a < h'.length)) t v ∧ h.length ≤ h'.length ∧
      ∀ a, a < h.length → a ≠ t → h'[a]? = h[a]?
  | .error e => r.2 = .error e

theorem opAt_step {h : Heap} {t : Nat} {v w : Value} {o : HOps} {ov : Ops} {p : Path} {e : PathEl} {ob ob' : Obj} {r : Ref}
    (hP : ∀ a, P a → a < h.length) (ht : ¬ P t) (hob : h[t]? = some ob) (ho : RPOps h P o ov)
    (hget : getItem h t e = .ok r) (hr : RP h P r w)
    (hset : ∀ h1 : Heap, h1[t]? = some ob → setItem h1 t e (.addr h.length) = h1.set t ob')
    (f : Value → Value)
    (hob' : ∀ (h' : Heap) (Q : Nat → Prop) w', (∀ a, P a → Q a ∧ h'[a]? = h[a]?) → RP h' Q (.addr h.length) w' → RPObj h' Q ob' (f w'))
    (ih : ∀ (h1 : Heap) (c : Nat), (∀ a, P a → a < h1.length) → ¬ P c → Cont h1 P c w → RPOps h1 P o ov →
      OpAgrees h1 P c (opAt h1 c p o) (applyAt ov p w)) (hv : applyAt ov (e :: p) v = (applyAt ov p w).map f) :
    OpAgrees h P t (opAt h t (e :: p) o) (applyAt ov (e :: p) v) := by
  have htl : t < h.length := (List.getElem?_eq_some_iff.1 hob).1
  rw [hv]
  unfold opAt
  rw [walk, hget]
  dsimp only
  rcases rp_cases hr with ⟨a, o', rfl, hpa, ha, hro⟩ | ⟨rfl, hs⟩
  · rw [copy, ha]
    dsimp only
    have h1t : (h ++ [o'])[t]? = some ob := (List.getElem?_append_left htl).trans hob
    rw [hset _ h1t]
    have hag : ∀ a, a < h.length → a ≠ t → ((h ++ [o']).set t ob')[a]? = h[a]? := fun a hal hat =>
      (List.getElem?_set_ne (fun e => hat e.symm)).trans (List.getElem?_append_left hal)
    have hkeep : ∀ a, P a → P a ∧ ((h ++ [o']).set t ob')[a]? = h[a]? := fun a hpa =>
      ⟨hpa, hag a (hP a hpa) (fun e => ht (e ▸ hpa))⟩
    have hlen : ((h ++ [o']).set t ob').length = h.length + 1 := by simp
    have hcl : ((h ++ [o']).set t ob')[h.length]? = some o' := by
      rw [List.getElem?_set_ne (by omega)]; simp
    have := ih ((h ++ [o']).set t ob') h.length (fun a hpa => by rw [hlen]; have := hP a hpa; omega)
      (fun hp => by have := hP _ hp; omega) ⟨o', hcl, hro.frame hkeep⟩ (ho.frame hkeep)
    unfold opAt at this
    cases hx : applyAt ov p w with
    | error e => rw [hx] at this; exact this
    | ok w' =>
      rw [hx] at this
      obtain ⟨h', e1, hc, hle, hfr⟩ := this
      rw [hlen] at hle hc hfr
      have hP' : ∀ a, P a → h'[a]? = h[a]? := fun a hpa => by
        have hal := hP a hpa
        rw [hfr a (by omega) (by omega)]
        exact (hkeep a hpa).2
      refine ⟨h', e1, ⟨ob', ?_, ?_⟩, by omega, fun a hal hat => ?_⟩
      · rw [hfr t (by omega) (by omega)]
        exact List.getElem?_set_self (by simp; omega)
      · refine hob' h' _ w' (fun a hpa => ⟨.inl hpa, hP' a hpa⟩) (cont_rp hc ?_ ?_)
        · rintro a (hpa | ⟨h1, h2⟩)
          · exact .inl hpa
          · exact .inr ⟨by omega, h2⟩
        · exact .inr ⟨by omega, by omega⟩
      · rw [hfr a (by omega) (by omega)]
        exact hag a hal hat
  · have : applyAt ov p w = .error .attributeError := by
      cases p with
      | nil => cases w <;> first | rfl | (simp [Value.isScalar] at hs; done)
      | cons e' p' => cases w <;> cases e' <;> first | rfl | (simp [Value.isScalar] at hs; done)
    rw [this, copy]
    rfl

theorem opAt_agrees {o : HOps} {ov : Ops} : ∀ (p : Path) (h : Heap) (t : Nat) (v : Value), (∀ a, P a → a < h.length) → ¬ P t → Cont h P t v →
    RPOps h P o ov → OpAgrees h P t (opAt h t p o) (applyAt ov p v)
  | [], h, t, v, hP, ht, hc, ho => by
    have := applyOps_agrees ht hc ho
    rw [applyAt]
    unfold opAt
    rw [walk]
    show OpAgrees h P t (applyOps h t o) _
    cases hx : Splitgill.applyOps ov v with
    | error e => rw [hx] at this; exact this
    | ok v' =>
      rw [hx] at this
      obtain ⟨h', e, ⟨ob, hob, hr⟩, h1⟩ := this
      exact ⟨h', e, ⟨ob, hob, hr.frame (fun a ha => ⟨.inl ha, rfl⟩)⟩, Nat.le_of_eq h1.1.symm, fun a _ hat => h1.2 a hat⟩
  | .key k :: p, h, t, v, hP, ht, hc, ho => by
    obtain ⟨ob, hob, hr⟩ := hc
    cases ob with
    | dict d0 =>
      cases v with
      | dict dv =>
        have hg := sameKeys_aget (rpItems_iff.1 hr) k
        cases hv : aget k dv with
        | none =>
          rw [hv] at hg
          have hd := both_none hg
          have e1 : applyAt ov (.key k :: p) (.dict dv) = .error .keyError := by rw [applyAt, hv]
          rw [e1]
          unfold opAt
          rw [walk]
          simp only [getItem, hob, hd]
          rfl
        | some w =>
          rw [hv] at hg
          obtain ⟨r, hd, hrw⟩ := both_some hg
          refine opAt_step (w := w) (r := r) (ob' := .dict (aset k (.addr h.length) d0)) hP ht hob ho (by simp only [getItem, hob, hd]) hrw
            (fun h1 h1t => by simp only [setItem, h1t]) (fun w' => .dict (aset k w' dv)) (fun h' Q w' hf hw' => ?_)
            (fun h1 c q1 q2 q3 q4 => opAt_agrees p h1 c w q1 q2 q3 q4) (by rw [applyAt, hv]; rfl)
          exact rpItems_iff.2 (sameKeys_aset (rpItems_iff.1 (RPItems.frame hf _ _ hr)) hw')
      | _ => exact hr.elim
    | list l =>
      cases v with
      | list lv =>
        rw [applyAt]
        unfold opAt
        rw [walk]
        simp only [getItem, hob]
        rfl
      | _ => exact hr.elim
  | .idx i :: p, h, t, v, hP, ht, hc, ho => by
    obtain ⟨ob, hob, hr⟩ := hc
    cases ob with
    | list l0 =>
      cases v with
      | list lv =>
        have hg := forall₂_get (rpElems_iff.1 hr) i
        cases hv : lv[i]? with
        | none =>
          rw [hv] at hg
          have hd := both_none hg
          have e1 : applyAt ov (.idx i :: p) (.list lv) = .error .indexError := by rw [applyAt, hv]
          rw [e1]
          unfold opAt
          rw [walk]
          simp only [getItem, hob, hd]
          rfl
        | some w =>
          rw [hv] at hg
          obtain ⟨r, hd, hrw⟩ := both_some hg
          refine opAt_step (w := w) (r := r) (ob' := .list (l0.set i (.addr h.length))) hP ht hob ho (by simp only [getItem, hob, hd]) hrw
            (fun h1 h1t => by simp only [setItem, h1t]) (fun w' => .list (lv.set i w')) (fun h' Q w' hf hw' => ?_)
            (fun h1 c q1 q2 q3 q4 => opAt_agrees p h1 c w q1 q2 q3 q4) (by rw [applyAt, hv]; rfl)
          exact rpElems_iff.2 (forall₂_set (rpElems_iff.1 (RPElems.frame hf _ _ hr)) hw' i)
      | _ => exact hr.elim
    | dict l =>
      cases v with
      | dict lv =>
        rw [applyAt]
        unfold opAt
        rw [walk]
        simp only [getItem, hob]
        rfl
      | _ => exact hr.elim

theorem readsChanges_iff {h : Heap} : ∀ (a : List (Nat × Ref)) (b : List (Nat × Value)), ReadsChanges h a b →
    List.Forall₂ (fun a b => a.1 = b.1 ∧ RP h (· < h.length) a.2 b.2) a b
  | [], [], _ => .nil
  | (i, r) :: l, (j, v) :: m, hr => .cons ⟨hr.1, (reads_iff v r).1 hr.2.1⟩ (readsChanges_iff l m hr.2.2)
  | [], _ :: _, hr => hr.elim
  | _ :: _, [], hr => hr.elim

theorem ReadsOps.rp {h : Heap} {o : HOps} {ov : Ops} (hr : ReadsOps h o ov) : RPOps h (· < h.length) o ov where
  dc := hr.dc.mono (fun r d => (reads_iff _ r).1)
  dn := hr.dn.mono (fun r d => (reads_iff _ r).1)
  dd := hr.dd
  lc := hr.lc.mono (fun a b => readsChanges_iff a b)
  ln := hr.ln.mono (fun r d => (reads_iff _ r).1)
  ld := hr.ld

/-- The values of a run of `patch`. -/
def PatchAgrees (r : Res Nat) (x : Except PyErr Value) : Prop :=
  match x with
  | .ok v => ∃ a, r.2 = .ok a ∧ Reads r.1 (.addr a) v
  | .error e => r.2 = .error e

theorem patchLoop_agrees {h0 : Heap} {new : Nat} (hnew : h0.length ≤ new) : ∀ (ops : List (Path × HOps)) (dops : List DiffOp) (h : Heap) (v : Value),
    ReadsDiff h0 ops dops → Frame h0.length h0 h → Cont h (fun a => a < h.length ∧ a ≠ new) new v →
    PatchAgrees (patchLoop h new ops) (Splitgill.patch v dops)
  | [], [], h, v, _, _, hc => by
    obtain ⟨ob, hob, hr⟩ := hc
    refine ⟨new, rfl, (reads_iff _ _).2 (cont_rp ⟨ob, hob, hr⟩ (fun a ha => ha.1) (List.getElem?_eq_some_iff.1 hob).1)⟩
  | [], _ :: _, _, _, hd, _, _ => hd.elim
  | _ :: _, [], _, _, hd, _, _ => hd.elim
  | (p, o) :: ops, d :: dops, h, v, hd, hf, hc => by
    obtain ⟨rfl, ho, hd⟩ := hd
    have hnl : new < h.length := (List.getElem?_eq_some_iff.1 hc.choose_spec.1).1
    have key := opAt_agrees (o := o) (ov := d.ops) d.path h new v (fun a ha => ha.1) (fun ha => ha.2 rfl) hc
      (ho.rp.frame (fun a (ha : a < h0.length) => ⟨⟨by omega, by omega⟩, hf.2 a ha⟩))
    have e1 : patchLoop h new ((d.path, o) :: ops) = (opAt h new d.path o).andThen (fun h _ => patchLoop h new ops) := by
      rw [patchLoop]
      unfold opAt
      rcases walk h new d.path with ⟨h1, x⟩
      cases x <;> rfl
    have e2 : Splitgill.patch v (d :: dops) = (applyAt d.ops d.path v).bind (fun v => Splitgill.patch v dops) := rfl
    rw [e1, e2]
    cases hx : applyAt d.ops d.path v with
    | error e =>
      rw [hx] at key
      rcases hr : opAt h new d.path o with ⟨h1, y⟩
      rw [hr] at key
      have : y = .error e := key
      subst this
      exact rfl
    | ok v' =>
      rw [hx] at key
      obtain ⟨h', e, ⟨ob, hob, hr⟩, hle, hag⟩ := key
      rw [e]
      refine patchLoop_agrees hnew ops dops h' v' hd (hf.trans ⟨hle, fun a ha => hag a (by have := hf.1; omega) (by omega)⟩)
        ⟨ob, hob, hr.frame (fun a ha => ⟨?_, rfl⟩)⟩
      rcases ha with ⟨h1, h2⟩ | ⟨h1, h2⟩
      · exact ⟨by omega, h2⟩
      · exact ⟨h2, by omega⟩

theorem patch_agrees {h : Heap} {base : Nat} {v : Value} {ops : List (Path × HOps)} {dops : List DiffOp} (hb : Reads h (.addr base) v)
    (hd : ReadsDiff h ops dops) : PatchAgrees (patch h base ops) (Splitgill.patch v dops) := by
  unfold patch
  cases ops with
  | nil =>
    cases dops with
    | nil => exact ⟨base, rfl, hb⟩
    | cons => exact hd.elim
  | cons o ops =>
    rw [if_neg (by simp)]
    rcases rp_cases ((reads_iff _ _).1 hb) with ⟨a, ob, e, hpa, ha, hro⟩ | ⟨e, _⟩
    · cases e
      rw [copy, ha]
      show PatchAgrees (patchLoop (h ++ [ob]) h.length (o :: ops)) _
      refine patchLoop_agrees (Nat.le_refl _) _ _ _ _ hd (frame_append (Nat.le_refl _) ob) ⟨ob, by simp, hro.frame (fun a ha => ⟨?_, ?_⟩)⟩
      · exact ⟨by simp; have : a < h.length := ha; omega, by have : a < h.length := ha; omega⟩
      · exact List.getElem?_append_left ha
    · cases e

end Splitgill.Heap
