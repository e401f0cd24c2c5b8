import Verif.Proof.Reach
import Verif.Proof.Diff2
/-!
# Lemmas: histories with the types of scalars
-/

namespace Splitgill

theorem strictEq_getAt_some {p : Path} {l v : Value} (hv : getAt p l = some v) :
    ∀ {r}, strictEq l r = true → ∃ w, getAt p r = some w := by
  refine getAt_ind (P := fun p l v => ∀ {r}, strictEq l r = true → ∃ w, getAt p r = some w) ?_ ?_ ?_ p l v hv
  · intro v r _; exact ⟨r, rfl⟩
  · intro k p d x v hx _ ih r h
    obtain ⟨b, rfl⟩ := eqWith_dict_left h
    rw [strictEq, eqWith_dict_iff] at h
    obtain ⟨y, hy, hxy⟩ := h.2 k x (aget_mem hx)
    obtain ⟨w, hw⟩ := ih hxy
    exact ⟨w, by simp [getAt, hy, hw]⟩
  · intro i p l x v hx _ ih r h
    obtain ⟨b, rfl, h'⟩ := eqWith_list_left h
    rw [eqListWith_iff] at h'
    obtain ⟨hi, rfl⟩ := List.getElem?_eq_some_iff.1 hx
    have hi' : i < b.length := by rw [← h'.length_eq]; exact hi
    obtain ⟨w, hw⟩ := ih (h'.get hi hi')
    exact ⟨w, by simpa [getAt, hi'] using hw⟩

/-- Which scalars may be at which place. -/
structure Places where
  at_ : Path → Value → Prop
  noPun : ∀ p v w, at_ p v → at_ p w → pyEq v w = true → v = w

/-- All scalars of the data are at their places. -/
def Places.Has (T : Places) (d : Dict) : Prop := ∀ p v, getAt p (.dict d) = some v → v.isScalar = true → T.at_ p v

theorem Places.Has.noPun {T : Places} {a b : Dict} (ha : T.Has a) (hb : T.Has b) : NoPun (.dict a) (.dict b) :=
  fun p v w hv hw hs hs' h => T.noPun p v w (ha p v hv hs) (hb p w hw hs') h

/-- Data whose scalars are at their places; equal with all types. -/
def strictClass (T : Places) : DataClass where
  c := strictScalarEq
  Q d := (Value.dict d).wf = true ∧ T.Has d
  refl := fun _ hv => (strictScalarEq_iff hv).2 rfl
  symm h := ⟨h.2.1, h.1, strictEq_symm h.1 h.2.1 h.2.2⟩
  trans h h' := ⟨h.1, h'.2.1, strictEq_trans h.2.2 h'.2.2⟩
  toSim h := ⟨h.1, h.2.1, simEq_of_strictEq h.2.2⟩
  wf h := h.1
  closed {a b} h ha := by
    refine ⟨h.2.1, fun p v hv hs => ?_⟩
    have hs' : strictEq (.dict b) (.dict a) = true := strictEq_symm h.1 h.2.1 h.2.2
    obtain ⟨w, hw⟩ := strictEq_getAt_some hv hs'
    have hvw := strictEq_getAt hv hs' hw
    rw [strictEq, eqWith_scalar_left hs, Bool.and_eq_true] at hvw
    have := (strictScalarEq_iff hs).1 hvw.2
    subst this
    exact ha.2 p v hw hs
  merge ha hb h := by
    have h4 := mergeV_wf _ _ ha.1 hb.1
    have h3 := mergeV_strictEq ha.1 hb.1 (ha.2.noPun hb.2)
    rw [h] at h3 h4
    exact ⟨h4, hb.1, h3⟩
  ofPyEq ha hb h := ⟨ha.1, hb.1, strictEq_of_pyEq _ _ ha.1 hb.1 (ha.2.noPun hb.2) h⟩

/-- The scalars that records with an id have. -/
def placesOf (U : Unicode) (rs : List Record) (h : NoPunsAmong U rs) (id : PyStr) : Places where
  at_ p v := ∃ r ∈ rs, r.id = id ∧ getAt p (.dict (prepareRecordData U r)) = some v ∧ v.isScalar = true
  noPun := by
    rintro p v w ⟨r, hr, he, hv, hs⟩ ⟨r', hr', he', hw, hs'⟩ hp
    exact h r hr r' hr' (he.trans he'.symm) p v w hv hw hs hs' hp

theorem fits_strict {U : Unicode} {rs : List Record} (h : NoPunsAmong U rs) {l : List Record} (hl : ∀ r ∈ l, r ∈ rs) :
    Fits (fun id => strictClass (placesOf U rs h id)) U l :=
  fun r hr => ⟨prepareRecordData_wf U r, fun _ v hv hs => ⟨r, hl r hr, rfl, hv, hs⟩⟩

theorem DEq.strict {T : Places} {a b : Dict} (h : DEq (strictClass T) a b) : strictEq (.dict a) (.dict b) = true := h.vr.2.2

end Splitgill
