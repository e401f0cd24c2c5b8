import Verif.Proof.Diff2
/-!
# C01-C03: `diff` and `patch`

Dicts are association lists without repeated keys at any depth (`wf`), which every Python dict is.
-/

namespace Splitgill.Props
open Splitgill

/-- **C01** `patch(base, list(diff(base, new)))` completes and gives a dict equal to `new` (Python
equality, NaN equal to itself), for every two dicts. -/
theorem C01_patch_diff (base new : Dict) (hb : (Value.dict base).wf = true)
    (hn : (Value.dict new).wf = true) :
    ∃ ops res, diff (.dict base) (.dict new) = .ok ops ∧
      patch (.dict base) ops = .ok (.dict res) ∧ (Value.dict res).wf = true ∧
      simEq (.dict res) (.dict new) = true := by
  obtain ⟨ops, h1, h2⟩ := patch_diff hb hn
  have h3 := mergeV_simEq hb hn
  have h4 := mergeV_wf _ _ hb hn
  cases hm : mergeV (.dict base) (.dict new) with
  | dict res => rw [hm] at h2 h3 h4; exact ⟨ops, res, h1, h2, h4, h3⟩
  | _ => rw [hm] at h3; simp [simEq, eqWith] at h3

/-- Test data: `{"a": 1, "b": [1, {"c": None}], "n": nan}`. -/
def exBase : Dict := [(['a'], .int 1), (['b'], .list [.int 1, .dict [(['c'], .none)]]),
  (['n'], .float .nan)]
/-- Test data: `{"b": [2, {"c": "x", "d": []}, 5], "e": {}, "n": nan}`. -/
def exNew : Dict := [(['b'], .list [.int 2, .dict [(['c'], .str ['x']), (['d'], .list [])], .int 5]),
  (['e'], .dict []), (['n'], .float .nan)]

example : (Value.dict exBase).wf = true ∧ (Value.dict exNew).wf = true ∧
    ((diff (.dict exBase) (.dict exNew)).toOption.map List.length) = some 3 := by decide

/-- **C02** (first part) the diff is empty iff `base == new`. -/
theorem C02_diff_empty_iff (base new : Dict) (hb : (Value.dict base).wf = true)
    (hn : (Value.dict new).wf = true) :
    diff (.dict base) (.dict new) = .ok [] ↔ pyEq (.dict base) (.dict new) = true :=
  diff_nil_iff hb hn

/-- **C02** (second part) every op carries a change and no two ops have the same path. -/
theorem C02_ops_nontrivial_distinct (base new : Dict) (hb : (Value.dict base).wf = true)
    (hn : (Value.dict new).wf = true) (ops : List DiffOp)
    (h : diff (.dict base) (.dict new) = .ok ops) :
    (∀ op ∈ ops, op.ops.nontrivial) ∧ (ops.map DiffOp.path).Nodup := by
  rcases diff_cases (base := base) (new := new) with ⟨_, h2⟩ | ⟨_, h2⟩
  · rw [h2] at h; cases h; simp
  · rw [h2] at h; cases h
    refine ⟨bfs_nontrivial _ _, bfs_paths_nodup _ _ ?_ (by simp)⟩
    intro c hc; simp at hc; subst hc; exact ⟨hb, hn⟩

example : (Value.dict exBase).wf = true ∧ (Value.dict exNew).wf = true ∧
    pyEq (.dict exBase) (.dict exNew) = false ∧ pyEq (.dict exBase) (.dict exBase) = false ∧
    pyEq (.dict [(['a'], .bool true)]) (.dict [(['a'], .int 1)]) = true := by decide

/-- **C03** (full statement) patching gives the new data including its types. -/
def C03_full : Prop := ∀ base new : Dict, (Value.dict base).wf = true → (Value.dict new).wf = true →
  ∃ ops res, diff (.dict base) (.dict new) = .ok ops ∧ patch (.dict base) ops = .ok res ∧
    strictEq res (.dict new) = true

/-- **C03 is false of the code**: with `base = {"x": 1, "y": 0}` and `new = {"x": True, "y": 1}` the
patched dict is `{"x": 1, "y": 1}`. -/
theorem C03_refuted : ¬ C03_full := by
  intro h
  obtain ⟨ops, res, h1, h2, h3⟩ := h [(['x'], .int 1), (['y'], .int 0)]
    [(['x'], .bool true), (['y'], .int 1)] (by decide) (by decide)
  have e : ops = [⟨[], { dc := some [(['y'], .int 1)] }⟩] := by
    have : diff (.dict [(['x'], .int 1), (['y'], .int 0)])
      (.dict [(['x'], .bool true), (['y'], .int 1)]) =
        .ok [⟨[], { dc := some [(['y'], .int 1)] }⟩] := by rfl
    rw [this] at h1; cases h1; rfl
  subst e
  have : patch (.dict [(['x'], .int 1), (['y'], .int 0)])
      [⟨[], { dc := some [(['y'], .int 1)] }⟩] =
      .ok (.dict [(['x'], .int 1), (['y'], .int 1)]) := by rfl
  rw [this] at h2; cases h2
  revert h3; decide

/-- **C03** (what holds) patching is type exact if and only if no place of the two dicts holds two
different scalars which Python considers equal.  Missing from the full property: data in which a
value changes between `True`/`1`/`1.0` (or `0.0`/`-0.0`). -/
theorem C03_type_exact_partial (base new : Dict) (hb : (Value.dict base).wf = true)
    (hn : (Value.dict new).wf = true) :
    ∃ ops res, diff (.dict base) (.dict new) = .ok ops ∧ patch (.dict base) ops = .ok res ∧
      (strictEq res (.dict new) = true ↔ NoPun (.dict base) (.dict new)) := by
  obtain ⟨ops, h1, h2⟩ := patch_diff hb hn
  exact ⟨ops, _, h1, h2, mergeV_strictEq_iff hb hn⟩

/-- A pair of different dicts without such places. -/
example : NoPun (.dict [(['x'], .int 1)]) (.dict [(['x'], .int 2), (['y'], .bool true)]) := by
  intro p v w hv hw _ _ hp
  match p with
  | [] => simp [getAt] at hv hw; subst hv; subst hw; exact absurd hp (by decide)
  | [.key k] =>
    simp only [getAt, aget_cons] at hv hw
    by_cases hk : k = ['x']
    · simp [hk] at hv hw; subst hv; subst hw; exact absurd hp (by decide)
    · simp [hk] at hv
  | .key k :: b :: p =>
    simp only [getAt, aget_cons] at hv
    by_cases hk : k = ['x']
    · cases b <;> simp [hk, getAt] at hv
    · simp [hk] at hv
  | .idx i :: p => simp [getAt] at hv

end Splitgill.Props
