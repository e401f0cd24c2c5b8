import Verif.Proof.PatchCongr
import Verif.Proof.Prepare
import Verif.Spec.History
/-!
# The stored documents represent the abstract histories: one record
-/

namespace Splitgill

/-! ## Sorting -/

section
variable {α : Type} (le : α → α → Bool)

theorem insertBy_perm (x : α) : ∀ l, (insertBy le x l).Perm (x :: l)
  | [] => by simp [insertBy]
  | y :: ys => by
    rw [insertBy]; split
    · exact .refl _
    · exact ((insertBy_perm x ys).cons y).trans (.swap x y ys)

theorem sortBy_perm : ∀ l, (sortBy le l).Perm l
  | [] => .refl _
  | x :: xs => (insertBy_perm le x _).trans ((sortBy_perm xs).cons x)

variable {le} (htot : ∀ a b, le a b = false → le b a = true)
  (htrans : ∀ a b c, le a b = true → le b c = true → le a c = true)
include htot htrans

theorem insertBy_pairwise {x : α} : ∀ {l}, l.Pairwise (fun a b => le a b = true) →
    (insertBy le x l).Pairwise (fun a b => le a b = true)
  | [], _ => by simp [insertBy]
  | y :: ys, h => by
    rw [List.pairwise_cons] at h
    rw [insertBy]
    split
    · rename_i hxy
      rw [List.pairwise_cons, List.pairwise_cons]
      refine ⟨?_, h⟩
      intro z hz
      rcases List.mem_cons.1 hz with e | hz
      · rw [e]; exact hxy
      · exact htrans _ _ _ hxy (h.1 z hz)
    · rename_i hxy
      rw [List.pairwise_cons]
      refine ⟨?_, insertBy_pairwise h.2⟩
      intro z hz
      have := (insertBy_perm le x ys).subset hz
      rcases List.mem_cons.1 this with e | hz
      · rw [e]; exact htot _ _ (by simpa using hxy)
      · exact h.1 z hz

theorem sortBy_pairwise : ∀ l, (sortBy le l).Pairwise (fun a b => le a b = true)
  | [] => .nil
  | _ :: xs => insertBy_pairwise htot htrans (sortBy_pairwise xs)
end

theorem perm_pairwise_unique {r : Int → Int → Prop} (hanti : ∀ a b, r a b → r b a → a = b) {l m : List Int}
    (hp : l.Perm m) (hl : l.Pairwise r) (hm : m.Pairwise r) : l = m := by
  induction l generalizing m with
  | nil => exact (List.nil_perm.1 hp).symm ▸ rfl
  | cons x l ih =>
    cases m with
    | nil => exact absurd hp.symm (by simp)
    | cons y m =>
      rw [List.pairwise_cons] at hl hm
      have hxy : x = y := by
        have hx : x ∈ y :: m := hp.subset (by simp)
        have hy : y ∈ x :: l := hp.symm.subset (by simp)
        rcases List.mem_cons.1 hx with e | hx
        · exact e
        · rcases List.mem_cons.1 hy with e | hy
          · exact e.symm
          · exact hanti _ _ (hl.1 y hy) (hm.1 x hx)
      subst hxy
      rw [ih (List.Perm.cons_inv hp) hl.2 hm.2]

theorem sortDesc_eq {l m : List Int} (hl : l.Nodup) (hm : m.Pairwise (· > ·)) (h : ∀ x, x ∈ l ↔ x ∈ m) :
    sortDesc l = m := by
  have hmn : m.Nodup := hm.imp (fun h => by omega)
  have hp : l.Perm m := (List.perm_ext_iff_of_nodup hl hmn).2 h
  apply perm_pairwise_unique (r := fun a b => b ≤ a) (fun a b h1 h2 => by omega)
  · exact (sortBy_perm _ l).trans hp
  · have := sortBy_pairwise (le := fun a b => decide (b ≤ a)) (by intro a b h; simp at *; omega)
      (by intro a b c h1 h2; simp at *; omega) l
    exact this.imp (fun h => by simpa using h)
  · exact hm.imp (fun h => by omega)

theorem sortAsc_eq {l m : List Int} (hl : l.Nodup) (hm : m.Pairwise (· < ·)) (h : ∀ x, x ∈ l ↔ x ∈ m) :
    sortAsc l = m := by
  have hmn : m.Nodup := hm.imp (fun h => by omega)
  have hp : l.Perm m := (List.perm_ext_iff_of_nodup hl hmn).2 h
  apply perm_pairwise_unique (r := fun a b => a ≤ b) (fun a b h1 h2 => by omega)
  · exact (sortBy_perm _ l).trans hp
  · have := sortBy_pairwise (le := fun a b => decide (a ≤ b)) (by intro a b h; simp at *; omega)
      (by intro a b c h1 h2; simp at *; omega) l
    exact this.imp (fun h => by simpa using h)
  · exact hm.imp (fun h => by omega)

/-! ## Equal dicts -/

theorem simRefl : ∀ v : Value, v.isScalar = true → simScalarEq v v = true := fun _ => simScalarEq_refl

/-- A notion of equal data, and a condition on the data of a record under which patching gives equal data. The histories are
represented up to this equality. -/
structure DataClass where
  /-- when two scalars are the same -/
  c : Value → Value → Bool
  /-- the condition on the data -/
  Q : Dict → Prop
  refl : ∀ v : Value, v.isScalar = true → c v v = true
  symm : ∀ {a b : Value}, VR c a b → VR c b a
  trans : ∀ {a b d : Value}, VR c a b → VR c b d → VR c a d
  toSim : ∀ {a b : Dict}, VR c (.dict a) (.dict b) → VR simScalarEq (.dict a) (.dict b)
  wf : ∀ {a : Dict}, Q a → (Value.dict a).wf = true
  closed : ∀ {a b : Dict}, VR c (.dict a) (.dict b) → Q a → Q b
  merge : ∀ {a b r : Dict}, Q a → Q b → mergeV (.dict a) (.dict b) = .dict r → VR c (.dict r) (.dict b)
  ofPyEq : ∀ {a b : Dict}, Q a → Q b → pyEq (.dict a) (.dict b) = true → VR c (.dict a) (.dict b)

/-- All data, equal in Python's sense but for NaN, which equals itself. -/
def plainClass : DataClass where
  c := simScalarEq
  Q d := (Value.dict d).wf = true
  refl := simRefl
  symm h := ⟨h.2.1, h.1, simEq_symm h.1 h.2.1 h.2.2⟩
  trans h h' := ⟨h.1, h'.2.1, simEq_trans h.2.2 h'.2.2⟩
  toSim h := h
  wf h := h
  closed h _ := h.2.1
  merge ha hb h := by
    have h4 := mergeV_wf _ _ ha hb
    have h3 := mergeV_simEq ha hb
    rw [h] at h3 h4
    exact ⟨h4, hb, h3⟩
  ofPyEq ha hb h := ⟨ha, hb, simEq_of_pyEq h⟩

/-- Equal data that satisfies the condition. -/
structure DEq (K : DataClass) (a b : Dict) : Prop where
  vr : VR K.c (.dict a) (.dict b)
  left : K.Q a
  right : K.Q b

variable {K : DataClass}

theorem DEq.wfl {a b : Dict} (h : DEq K a b) : (Value.dict a).wf = true := h.vr.1
theorem DEq.wfr {a b : Dict} (h : DEq K a b) : (Value.dict b).wf = true := h.vr.2.1
theorem DEq.sim {a b : Dict} (h : DEq K a b) : simEq (.dict a) (.dict b) = true := (K.toSim h.vr).2.2
theorem DEq.refl {a : Dict} (h : K.Q a) : DEq K a a := ⟨VR_refl K.refl (K.wf h), h, h⟩
theorem DEq.symm {a b : Dict} (h : DEq K a b) : DEq K b a := ⟨K.symm h.vr, h.right, h.left⟩
theorem DEq.trans {a b c : Dict} (h : DEq K a b) (h' : DEq K b c) : DEq K a c :=
  ⟨K.trans h.vr h'.vr, h.left, h'.right⟩
theorem DEq.of_pyEq {a b : Dict} (ha : K.Q a) (hb : K.Q b)
    (h : pyEq (.dict a) (.dict b) = true) : DEq K a b := ⟨K.ofPyEq ha hb h, ha, hb⟩
theorem DEq.of_vr {a b : Dict} (h : VR K.c (.dict a) (.dict b)) (ha : K.Q a) : DEq K a b := ⟨h, ha, K.closed h ha⟩

theorem pyEq_congr_right {a b : Dict} {x : Value} (h : DEq K a b) :
    pyEq x (.dict a) = pyEq x (.dict b) := by
  rw [Bool.eq_iff_iff]
  exact ⟨fun h' => pyEq_simEq h' h.sim, fun h' => pyEq_simEq h' h.symm.sim⟩

theorem pyEq_congr_left {a b x : Dict} (hx : (Value.dict x).wf = true) (h : DEq K a b) :
    pyEq (.dict a) (.dict x) = pyEq (.dict b) (.dict x) := by
  rw [Bool.eq_iff_iff]
  constructor
  · intro h'; exact pyEq_symm hx h.wfr (pyEq_simEq (pyEq_symm h.wfl hx h') h.sim)
  · intro h'; exact pyEq_symm hx h.wfl (pyEq_simEq (pyEq_symm h.wfr hx h') h.symm.sim)

/-- What `diff` gives for two dicts. -/
theorem diffDict_spec {a b : Dict} (ha : K.Q a) (hb : K.Q b) :
    ∃ ops r, diffDict a b = .ok ops ∧ (ops = [] ↔ pyEq (.dict a) (.dict b) = true) ∧ OpsWf ops ∧
      patchDict a ops = .ok r ∧ DEq K r b := by
  obtain ⟨ops, h1, h2⟩ := patch_diff (K.wf ha) (K.wf hb)
  have h3 := mergeV_simEq (K.wf ha) (K.wf hb)
  have h5 := diff_nil_iff (K.wf ha) (K.wf hb)
  rw [h1] at h5
  obtain ⟨r, hr⟩ : ∃ r, mergeV (.dict a) (.dict b) = .dict r := by
    cases hm : mergeV (.dict a) (.dict b) with
    | dict res => exact ⟨res, rfl⟩
    | _ => rw [hm] at h3; simp [simEq, eqWith] at h3
  rw [hr] at h2
  have hvr := K.merge ha hb hr
  refine ⟨ops, r, h1, ?_, diff_opsWf (K.wf ha) (K.wf hb) h1, by rw [patchDict, h2], hvr, K.closed (K.symm hvr) hb, hb⟩
  rw [← h5]; constructor
  · intro e; rw [e]
  · intro e; cases e; rfl

/-- For all dicts. -/
theorem diffDict_nil_iff {a b : Dict} (ha : (Value.dict a).wf = true) (hb : (Value.dict b).wf = true) :
    ∃ ops, diffDict a b = .ok ops ∧ (ops = [] ↔ pyEq (.dict a) (.dict b) = true) := by
  obtain ⟨ops, _, h1, h2, _⟩ := diffDict_spec (K := plainClass) ha hb
  exact ⟨ops, h1, h2⟩

/-! ## Chains of diffs -/

/-- Patching `base` along the diffs gives the data of the versions. -/
inductive Chain (K : DataClass) (diffs : List (Int × List DiffOp)) : Dict → List (Int × Dict) → Prop
  | nil {base} : Chain K diffs base []
  | cons {base v d cs ops data} : aget v diffs = some ops → OpsWf ops → patchDict base ops = .ok data →
      DEq K data d → Chain K diffs data cs → Chain K diffs base ((v, d) :: cs)

theorem Chain.congr {diffs : List (Int × List DiffOp)} {b b' : Dict} {cs} (h : Chain K diffs b cs)
    (hb : DEq K b b') : Chain K diffs b' cs := by
  induction h generalizing b' with
  | nil => exact .nil
  | cons h1 h2 h3 h4 _ ih =>
    obtain ⟨r', e, hr⟩ := patchDict_congr K.refl h2 hb.vr h3
    have hr := DEq.of_vr hr h4.left
    exact .cons h1 h2 e (DEq.trans (DEq.symm hr) h4) (ih hr)

theorem Chain.diffs {diffs diffs' : List (Int × List DiffOp)} {b : Dict} {cs} (h : Chain K diffs b cs)
    (hd : ∀ v ∈ cs.map Prod.fst, aget v diffs' = aget v diffs) : Chain K diffs' b cs := by
  induction h with
  | nil => exact .nil
  | cons h1 h2 h3 h4 _ ih =>
    refine .cons (by rw [hd _ (by simp), h1]) h2 h3 h4 (ih (fun v hv => hd v ?_))
    simp only [List.map_cons, List.mem_cons]; exact .inr hv

/-- A document whose current state is `(ver, d)` with the earlier versions `rest`. -/
structure DocRep (K : DataClass) (doc : MongoRecord) (ver : Option Int) (d : Dict) (rest : List (Int × Dict)) : Prop where
  version : doc.version = ver
  data : DEq K doc.data d
  chain : Chain K doc.diffs doc.data rest
  nodup : (akeys doc.diffs).Nodup
  keys : ∀ v, v ∈ akeys doc.diffs ↔ v ∈ rest.map Prod.fst
  desc : (rest.map Prod.fst).Pairwise (· > ·)

/-- A document (or no document) represents a history. -/
def Rep (K : DataClass) : Option MongoRecord → Hist → Prop
  | none, h => h.committed = [] ∧ h.pending = none
  | some doc, ⟨cs, some p⟩ => DocRep K doc none p cs
  | some doc, ⟨(v, d) :: cs, none⟩ => DocRep K doc (some v) d cs ∧ ∀ v' ∈ cs.map Prod.fst, v' < v
  | some _, ⟨[], none⟩ => False

theorem DEq.plain {a b : Dict} (h : DEq K a b) : DEq plainClass a b := ⟨K.toSim h.vr, h.wfl, h.wfr⟩

theorem Chain.plain {diffs : List (Int × List DiffOp)} {b : Dict} {cs} (h : Chain K diffs b cs) : Chain plainClass diffs b cs := by
  induction h with
  | nil => exact .nil
  | cons h1 h2 h3 h4 _ ih => exact .cons h1 h2 h3 h4.plain ih

theorem DocRep.plain {doc : MongoRecord} {ver d rest} (h : DocRep K doc ver d rest) : DocRep plainClass doc ver d rest :=
  ⟨h.version, h.data.plain, h.chain.plain, h.nodup, h.keys, h.desc⟩

theorem Rep.plain {o : Option MongoRecord} {h : Hist} (hr : Rep K o h) : Rep plainClass o h := by
  obtain ⟨cs, p⟩ := h
  cases o with
  | none => exact hr
  | some doc =>
    cases p with
    | some p => exact DocRep.plain hr
    | none =>
      cases cs with
      | nil => exact hr.elim
      | cons vd cs => exact ⟨DocRep.plain hr.1, hr.2⟩

theorem Rep.none_iff {h : Hist} : Rep K none h ↔ h.committed = [] ∧ h.pending = none := by
  simp [Rep]

/-! ## iter -/

/-- `SameStates` with the well-formedness of the data. -/
def StatesEq (K : DataClass) (items states : List VersionedData) : Prop :=
  List.Forall₂ (fun a b => a.1 = b.1 ∧ DEq K a.2 b.2) items states

theorem StatesEq.same {items states : List VersionedData} (h : StatesEq K items states) : SameStates items states :=
  h.imp (fun _ _ h => ⟨h.1, h.2.sim⟩)

theorem iterLoop_chain {diffs : List (Int × List DiffOp)} {b : Dict} {cs} (h : Chain K diffs b cs) :
    ∃ items, iterLoop diffs b (cs.map Prod.fst) = .ok items ∧
      StatesEq K items (cs.map (fun vd => (some vd.1, vd.2))) := by
  induction h with
  | nil => exact ⟨[], rfl, .nil⟩
  | @cons base v d cs ops data h1 h2 h3 h4 _ ih =>
    obtain ⟨items, e, hs⟩ := ih
    refine ⟨(some v, data) :: items, ?_, .cons ⟨rfl, h4⟩ hs⟩
    simp only [List.map_cons, iterLoop, h1, h3, e]

theorem DocRep.sort {doc : MongoRecord} {ver d rest} (h : DocRep K doc ver d rest) :
    sortDesc (akeys doc.diffs) = rest.map Prod.fst := sortDesc_eq h.nodup h.desc h.keys

theorem DocRep.iter {doc : MongoRecord} {ver d rest} (h : DocRep K doc ver d rest) :
    ∃ items, doc.iter = .ok items ∧
      StatesEq K items ((ver, d) :: rest.map (fun vd => (some vd.1, vd.2))) := by
  obtain ⟨items, e, hs⟩ := iterLoop_chain h.chain
  refine ⟨_, ?_, .cons (a := (doc.version, doc.data)) ⟨h.version, h.data⟩ hs⟩
  rw [MongoRecord.iter, h.sort, e]

theorem Rep.iter {doc : MongoRecord} {h : Hist} (hr : Rep K (some doc) h) :
    ∃ items, doc.iter = .ok items ∧ StatesEq K items h.states := by
  obtain ⟨cs, p⟩ := h
  cases p with
  | some p => exact DocRep.iter hr
  | none =>
    cases cs with
    | nil => exact hr.elim
    | cons vd cs => exact DocRep.iter hr.1

/-! ## revert -/

theorem DocRep.revert {doc : MongoRecord} {p v d cs} (h : DocRep K doc none p ((v, d) :: cs)) :
    ∃ doc', revertRecord doc = .ok (some (doc', .revert doc.id doc'.data v doc'.diffs.isEmpty)) ∧
      DocRep K doc' (some v) d cs ∧ doc'.id = doc.id ∧ (∀ v' ∈ cs.map Prod.fst, v' < v) ∧
      doc' = { doc with data := doc'.data, version := some v, diffs := aerase v doc.diffs } := by
  have hs := h.sort
  have hv : doc.diffs.isEmpty = false := by
    cases hd : doc.diffs with
    | nil => have := (h.keys v).2 (by simp); rw [hd] at this; simp at this
    | cons _ _ => rfl
  have hdesc := h.desc
  rw [List.map_cons, List.pairwise_cons] at hdesc
  obtain ⟨ops, data, h1, h2, h3, h4, h5⟩ : ∃ ops data, aget v doc.diffs = some ops ∧ OpsWf ops ∧
      patchDict doc.data ops = .ok data ∧ DEq K data d ∧ Chain K doc.diffs data cs := by
    have := h.chain
    cases this with
    | cons h1 h2 h3 h4 h5 => exact ⟨_, _, h1, h2, h3, h4, h5⟩
  refine ⟨{ doc with data := data, version := some v, diffs := aerase v doc.diffs }, ?_, ?_, rfl, ?_, rfl⟩
  · rw [revertRecord, hs, h.version, hv]
    simp only [Option.isSome_none, Bool.or_self, Bool.false_eq_true, if_false, List.map_cons, h1, h3]
  · constructor
    · rfl
    · exact h4
    · refine h5.diffs (fun v' hv' => ?_)
      have := hdesc.1 v' hv'
      rw [aget_aerase _ _ h.nodup, if_neg (by omega)]
    · exact nodup_aerase h.nodup
    · intro v'
      have h1 := h.keys v'
      simp only [List.map_cons, List.mem_cons] at h1
      rw [mem_akeys_aerase h.nodup, h1]
      constructor
      · rintro ⟨h1, h2 | h2⟩
        · exact absurd h2 h1
        · exact h2
      · intro h2; have := hdesc.1 v' h2; exact ⟨by omega, .inr h2⟩
    · exact hdesc.2
  · intro v' hv'; have := hdesc.1 v' hv'; omega

theorem revertRecord_committed {doc : MongoRecord} {v} (h : doc.version = some v) :
    revertRecord doc = .ok none := by
  simp [revertRecord, h]

/-! ## computeChanges -/

theorem aerase_eq_filter {κ α : Type} [DecidableEq κ] (m : κ) : ∀ {d : List (κ × α)}, (akeys d).Nodup →
    aerase m d = d.filter (fun kv => decide (kv.1 ≠ m))
  | [], _ => rfl
  | (k, v) :: r, h => by
    rw [akeys_cons, List.nodup_cons] at h
    rw [aerase]
    by_cases hk : m = k
    · subst hk
      rw [if_pos rfl, List.filter_cons]
      simp only [ne_eq, not_true_eq_false, decide_false, Bool.false_eq_true, if_false]
      symm
      rw [List.filter_eq_self]
      intro kv hkv
      have : kv.1 ≠ m := fun e => h.1 (e ▸ (List.mem_map_of_mem (f := Prod.fst) hkv : kv.1 ∈ akeys r))
      simpa using this
    · rw [if_neg hk, List.filter_cons, aerase_eq_filter m h.2]
      have : k ≠ m := fun e => hk e.symm
      simp [this]

theorem wf_aerase {m : PyStr} {d : Dict} (h : (Value.dict d).wf = true) : (Value.dict (aerase m d)).wf = true := by
  rw [wf_dict_iff] at *
  exact ⟨nodup_aerase h.1, fun k v hv => h.2 k v ((aerase_sublist m d).subset hv)⟩

theorem DEq_pop {m : PyStr} {d : Dict} {x} (hq : K.Q d) (hx : aget m d = some x) :
    DEq K (aerase m d ++ [(m, x)]) d := by
  have h := K.wf hq
  have hw := wf_dict_iff.1 h
  have hm : m ∉ akeys (aerase m d) := by rw [mem_akeys_aerase hw.1]; simp
  have e : aerase m d ++ [(m, x)] = aset m x (aerase m d) := (aset_of_not_mem m x hm).symm
  rw [e]
  refine DEq.symm (DEq.of_vr (K.symm (VR_dict.2 ?_)) hq)
  refine ⟨nodup_aset (nodup_aerase hw.1), hw.1, fun k => ?_⟩
  rw [aget_aset, aget_aerase _ _ hw.1]
  have hor : OR K.c (aget k d) (aget k d) := by
    cases hk : aget k d with
    | none => exact .inl ⟨rfl, rfl⟩
    | some v => exact .inr ⟨v, v, rfl, rfl, VR_refl K.refl (hw.2 k v (aget_mem hk))⟩
  by_cases hk : k = m
  · subst hk
    simp only [if_true]
    rw [hx] at hor ⊢; exact hor
  · simp only [hk, if_false]; exact hor

theorem pyEq_aerase {m : PyStr} {a b : Dict} (ha : (Value.dict a).wf = true) (hb : (Value.dict b).wf = true)
    (h : pyEq (.dict a) (.dict b) = true) : pyEq (.dict (aerase m a)) (.dict (aerase m b)) = true := by
  have : VR pyScalarEq (.dict a) (.dict b) := ⟨ha, hb, h⟩
  rw [VR_dict] at this
  exact (VR_dict.2 (DR_aerase (k := m) this)).2.2

theorem computeChanges_spec {mf : Option PyStr} {new old d : Dict} (hn : K.Q new) (hd : DEq K old d) :
    ∃ new' ch r, computeChanges mf new old = .ok (new', ch) ∧ DEq K new' new ∧
      (ch = [] ↔ sameData mf new d = true) ∧ OpsWf ch ∧
      (ch ≠ [] → patchDict new' ch = .ok r ∧ DEq K r old) := by
  have base : ∃ new' ch r, (do .ok (new, ← diffDict new old) : Except PyErr (Dict × List DiffOp)) = .ok (new', ch) ∧
      DEq K new' new ∧ (ch = [] ↔ pyEq (.dict new) (.dict d) = true) ∧ OpsWf ch ∧
      (ch ≠ [] → patchDict new' ch = .ok r ∧ DEq K r old) := by
    obtain ⟨ops, r, h1, h2, h3, h4, h5⟩ := diffDict_spec hn hd.left
    refine ⟨new, ops, r, by rw [h1]; rfl, DEq.refl hn, ?_, h3, fun _ => ⟨h4, h5⟩⟩
    rw [h2, pyEq_congr_right hd]
  cases mf with
  | none => exact base
  | some m =>
    unfold computeChanges sameData
    dsimp only
    have hkeys := DR_ahas (VR_dict.1 hd.vr) m
    cases hx : aget m new with
    | none =>
      have : ahas m new = false := by simp [ahas, hx]
      simp only [this, Bool.false_and, Bool.false_eq_true, if_false]
      exact base
    | some x =>
      cases hy : aget m old with
      | none =>
        have : ahas m d = false := by rw [← hkeys]; simp [ahas, hy]
        simp only [this, Bool.and_false, Bool.false_eq_true, if_false]
        exact base
      | some y =>
        have h1 : ahas m d = true := by rw [← hkeys]; simp [ahas, hy]
        have h2 : ahas m new = true := by simp [ahas, hx]
        simp only [h1, h2, Bool.and_self, if_true]
        rw [← aerase_eq_filter m (wf_dict_iff.1 (K.wf hn)).1, ← aerase_eq_filter m (wf_dict_iff.1 hd.wfr).1]
        have hde : DEq plainClass (aerase m old) (aerase m d) :=
          DEq.of_vr (VR_dict.2 (DR_aerase (VR_dict.1 (K.toSim hd.vr)))) (wf_aerase hd.wfl)
        obtain ⟨o1, e1, e2⟩ := diffDict_nil_iff (wf_aerase (m := m) (K.wf hn)) hde.wfl
        rw [pyEq_congr_right hde] at e2
        have hnew := DEq_pop hn hx
        have hold := DEq_pop hd.left hy
        rw [e1]
        simp only [bind, Except.bind]
        cases o1 with
        | nil =>
          refine ⟨_, _, [], rfl, hnew, ?_, ?_, ?_⟩
          · simp only [true_iff]; exact e2.1 rfl
          · intro op h; cases h
          · intro h; exact absurd rfl h
        | cons o os =>
          simp only [List.isEmpty_cons, Bool.false_eq_true, if_false]
          obtain ⟨ops, r, f1, f2, f3, f4, f5⟩ := diffDict_spec hnew.left hold.left
          rw [f1]
          refine ⟨_, _, r, rfl, hnew, ?_, f3, fun _ => ⟨f4, f5.trans hold⟩⟩
          rw [f2]
          have : ¬ pyEq (.dict (aerase m new)) (.dict (aerase m d)) = true := fun h => by
            cases e2.2 h
          constructor
          · intro h
            rw [pyEq_congr_right (hold.trans hd), pyEq_congr_left hd.wfr hnew] at h
            exact absurd (pyEq_aerase (K.wf hn) hd.wfr h) this
          · intro h; exact absurd h this

theorem DEq_putBack {mf : Option PyStr} {new old d : Dict} (h : DEq K old d) : DEq K (putBack mf new old) old := by
  unfold putBack
  split
  · exact DEq.refl h.left
  · split
    · rename_i h2
      exact DEq_pop h.left h2
    · exact DEq.refl h.left

/-! ## One op -/

/-- The effect of an op on the document with its id. -/
def docOp (o : Option MongoRecord) : MongoOp → Option MongoRecord
  | .insert id data => some { id := id, version := none, data := data }
  | .setData _ data => o.map (fun d => { d with data := data })
  | .setDiff _ data v changes =>
    o.map (fun d => { d with data := data, version := none, diffs := aset v changes d.diffs })
  | .revert _ data v all =>
    o.map (fun d => { d with data := data, version := some v,
                             diffs := if all then [] else aerase v d.diffs })
  | .delete _ => none

def MongoOp.isInsert : MongoOp → Bool
  | .insert _ _ => true
  | _ => false

def docOp? (o : Option MongoRecord) : Option MongoOp → Option MongoRecord
  | none => o
  | some op => docOp o op

theorem prepareRecordData_wf (U : Unicode) (r : Record) : (Value.dict (prepareRecordData U r)).wf = true := by
  unfold prepareRecordData
  split
  · rfl
  · have := prepareData_wf U (.dict r.data)
    rw [prepareData, wf_dict_iff] at this
    rw [wf_dict_iff]
    refine ⟨nodup_aset this.1, fun k v hv => ?_⟩
    rcases mem_aset hv with e | hv
    · cases e; exact prepareData_wf U _
    · exact this.2 k v hv

theorem prepareRecordData_isEmpty (U : Unicode) (r : Record) :
    (prepareRecordData U r).isEmpty = r.isDelete := by
  unfold prepareRecordData
  split
  · rename_i h; rw [h]; rfl
  · rename_i h
    have : aget dataIdField (aset dataIdField (prepareData U (.str r.id)) (aofList (prepareItems U r.data))) =
      some (prepareData U (.str r.id)) := by rw [aget_aset]; simp
    have h' : r.isDelete = false := by simpa using h
    rw [h']
    cases he : aset dataIdField (prepareData U (.str r.id)) (aofList (prepareItems U r.data)) with
    | nil => rw [he] at this; cases this
    | cons _ _ => rfl

/-- Storing a diff for the version before. -/
theorem DocRep.setDiff {doc doc1 : MongoRecord} {v d cs} {new new' r : Dict} {ch}
    (h1 : DocRep K doc1 (some v) d cs) (hlt : ∀ v' ∈ cs.map Prod.fst, v' < v)
    (hdn : (akeys doc.diffs).Nodup) (hdk : ∀ v', v' ∈ akeys (aset v ch doc.diffs) ↔ v' = v ∨ v' ∈ akeys doc1.diffs)
    (hdd : ∀ v' ∈ cs.map Prod.fst, aget v' doc.diffs = aget v' doc1.diffs)
    (hw : OpsWf ch) (hp : patchDict new' ch = .ok r) (hr : DEq K r doc1.data) (hn : DEq K new' new) :
    DocRep K { doc with data := new', version := none, diffs := aset v ch doc.diffs } none new
      ((v, d) :: cs) := by
  constructor
  · rfl
  · exact hn
  · refine .cons (by simp [aget_aset]) hw hp (hr.trans h1.data) ?_
    refine (h1.chain.congr hr.symm).diffs (fun v' hv' => ?_)
    have := hlt v' hv'
    rw [aget_aset, if_neg (by omega), hdd v' hv']
  · exact nodup_aset hdn
  · intro v'
    rw [hdk v', h1.keys]; simp
  · rw [List.map_cons, List.pairwise_cons]; exact ⟨fun v' hv' => hlt v' hv', h1.desc⟩

theorem opFor_spec {U : Unicode} {mf : Option PyStr} {e : Option MongoRecord} {r : Record} {h : Hist}
    (hq : K.Q (prepareRecordData U r)) (hr : Rep K e h) (hid : ∀ d, e = some d → d.id = r.id) :
    ∃ op, opFor U mf e r = .ok op ∧ (∀ o, op = some o → o.id = r.id ∧ (o.isInsert = true → e = none)) ∧
      Rep K (docOp? e op) (h.ingest mf (prepareRecordData U r)) ∧
      (∀ d, docOp? e op = some d → d.id = r.id) := by
  have hwf := prepareRecordData_wf U r
  have hemp := prepareRecordData_isEmpty U r
  cases e with
  | none =>
    obtain ⟨h1, h2⟩ := Rep.none_iff.1 hr
    have hh : h.ingest mf (prepareRecordData U r) =
        { committed := [], pending := if (prepareRecordData U r).isEmpty then none else some (prepareRecordData U r) } := by
      rw [Hist.ingest, h1]
    rw [hh, hemp, opFor]
    cases hdel : r.isDelete with
    | true => exact ⟨none, by simp, by simp, by simp [docOp?, Rep], by simp [docOp?]⟩
    | false =>
      refine ⟨some (.insert r.id (prepareRecordData U r)), by simp only [Bool.false_eq_true, if_false], ?_, ?_, ?_⟩
      · intro o ho; cases ho; exact ⟨rfl, fun _ => rfl⟩
      · simp only [Bool.false_eq_true, if_false, docOp?, docOp, Rep]
        exact ⟨rfl, DEq.refl hq, .nil, by simp, by simp, by simp⟩
      · intro d hd; cases hd; rfl
  | some doc =>
    have hid := hid doc rfl
    obtain ⟨cs, p⟩ := h
    rw [opFor]
    unfold opForExisting
    cases cs with
    | nil =>
      cases p with
      | none => exact hr.elim
      | some p =>
        have hr : DocRep K doc none p [] := hr
        have hd : doc.diffs = [] := by
          cases hd : doc.diffs with
          | nil => rfl
          | cons kv _ => have := (hr.keys kv.1).1 (by simp [hd]); simp at this
        simp only [hr.version, hd, Option.isNone_none, List.isEmpty_nil, Bool.and_self, if_true]
        rw [show Hist.ingest mf (prepareRecordData U r) ⟨[], some p⟩ =
          ⟨[], if (prepareRecordData U r).isEmpty then none else some (prepareRecordData U r)⟩ from rfl, hemp]
        cases hdel : r.isDelete with
        | true =>
          refine ⟨_, rfl, ?_, ?_, ?_⟩
          · intro o ho; cases ho; exact ⟨rfl, by simp [MongoOp.isInsert]⟩
          · simp [docOp?, docOp, Rep]
          · intro d hd'; simp [docOp?, docOp] at hd'
        | false =>
          simp only [Bool.false_eq_true, if_false]
          obtain ⟨ops, r', f1, f2, f3, f4, f5⟩ := diffDict_spec hq hr.data.left
          rw [f1]
          cases ops with
          | nil =>
            refine ⟨none, rfl, by simp, ?_, ?_⟩
            · simp only [docOp?, Rep]
              refine ⟨hr.version, ?_, .nil, hr.nodup, hr.keys, hr.desc⟩
              exact ((DEq.of_pyEq hq hr.data.left (f2.1 rfl)).symm)
            · intro d hd'; simp [docOp?] at hd'; subst hd'; exact hid
          | cons o os =>
            refine ⟨_, rfl, ?_, ?_, ?_⟩
            · intro o ho; cases ho; exact ⟨rfl, by simp [MongoOp.isInsert]⟩
            · simp only [docOp?, docOp, Option.map, Rep]
              exact ⟨hr.version, DEq.refl hq, .nil, hr.nodup, hr.keys, hr.desc⟩
            · intro d hd'; simp [docOp?, docOp] at hd'; subst hd'; exact hid
    | cons vd cs =>
      obtain ⟨v, d⟩ := vd
      rw [show Hist.ingest mf (prepareRecordData U r) ⟨(v, d) :: cs, p⟩ =
        ⟨(v, d) :: cs, if sameData mf (prepareRecordData U r) d then none else some (prepareRecordData U r)⟩ from rfl]
      -- the document at its last committed version
      obtain ⟨doc1, rop, hrev, hrep, hlt, hmatch, hn, hk, hsame, hrop, hdoc1, hid1⟩ :
          ∃ (doc1 : MongoRecord) (rop : Option MongoOp), revertIfPending doc = .ok (doc1, rop) ∧
          DocRep K doc1 (some v) d cs ∧ (∀ v' ∈ cs.map Prod.fst, v' < v) ∧
          (doc.version.isNone && doc.diffs.isEmpty) = false ∧ (akeys doc.diffs).Nodup ∧
          (∀ v' ch, v' ∈ akeys (aset v ch doc.diffs) ↔ v' = v ∨ v' ∈ akeys doc1.diffs) ∧
          (∀ v' ∈ cs.map Prod.fst, aget v' doc.diffs = aget v' doc1.diffs) ∧
          (∀ d' o, rop.map (MongoOp.withData d') = some o → o.id = r.id ∧ o.isInsert = false) ∧
          (∀ d', DEq K d' doc1.data → ∃ doc2, docOp? (some doc) (rop.map (MongoOp.withData d')) = some doc2 ∧
            DocRep K doc2 (some v) d cs ∧ doc2.id = r.id) ∧
          doc1.id = r.id := by
        cases p with
        | none =>
          obtain ⟨hr, hlt⟩ : DocRep K doc (some v) d cs ∧ ∀ v' ∈ cs.map Prod.fst, v' < v := hr
          refine ⟨doc, none, ?_, hr, hlt, ?_, hr.nodup, ?_, fun _ _ => rfl, by simp,
            fun _ _ => ⟨doc, rfl, hr, hid⟩, hid⟩
          · rw [revertIfPending, revertRecord_committed hr.version]
          · simp [hr.version]
          · intro v' ch; rw [mem_akeys_aset]
        | some p =>
          have hr : DocRep K doc none p ((v, d) :: cs) := hr
          obtain ⟨doc1, h1, h2, h3, h4, h5⟩ := hr.revert
          refine ⟨doc1, some (.revert doc.id doc1.data v doc1.diffs.isEmpty), ?_, h2, h4, ?_, hr.nodup, ?_, ?_, ?_, ?_, h3.trans hid⟩
          · rw [revertIfPending, h1]
          · cases hd : doc.diffs with
            | nil => have := (hr.keys v).2 (by simp); rw [hd] at this; simp at this
            | cons _ _ => simp
          · intro v' ch
            have : doc1.diffs = aerase v doc.diffs := by rw [h5]
            rw [mem_akeys_aset, this, mem_akeys_aerase hr.nodup]
            by_cases e : v' = v <;> simp [e]
          · intro v' hv'
            have := h4 v' hv'
            have e : doc1.diffs = aerase v doc.diffs := by rw [h5]
            rw [e, aget_aerase _ _ hr.nodup, if_neg (by omega)]
          · intro d' o ho; cases ho; exact ⟨hid, rfl⟩
          · intro d' hd'
            refine ⟨{ doc1 with data := d' }, ?_, ⟨h2.version, hd'.trans h2.data, h2.chain.congr hd'.symm, h2.nodup, h2.keys, h2.desc⟩, h3.trans hid⟩
            simp only [docOp?, docOp, Option.map, MongoOp.withData]
            conv => rhs; rw [h5]
            have e : doc1.diffs = aerase v doc.diffs := by rw [h5]
            congr 2
            split
            · rename_i hemp'
              rw [e] at hemp'
              exact (List.isEmpty_iff.1 hemp').symm
            · rfl
      rw [hmatch]
      simp only [Bool.false_eq_true, if_false]
      rw [hrev]
      simp only [opForCommitted]
      obtain ⟨new', ch, rr, c1, c2, c3, c4, c5⟩ := computeChanges_spec (mf := mf) hq hrep.data
      rw [c1]
      cases ch with
      | nil =>
        have hs := c3.1 rfl
        obtain ⟨doc2, g1, g2, g3⟩ := hdoc1 _ (DEq_putBack (mf := mf) (new := prepareRecordData U r) hrep.data)
        refine ⟨_, rfl, ?_, ?_, ?_⟩
        · intro o ho; obtain ⟨h1, h2⟩ := hrop _ o ho; exact ⟨h1, by simp [h2]⟩
        · rw [g1, hs]; exact ⟨g2, hlt⟩
        · intro d hd'; rw [g1] at hd'; cases hd'; exact g3
      | cons o os =>
        have hs : sameData mf (prepareRecordData U r) d = false := by
          cases hs : sameData mf (prepareRecordData U r) d with
          | false => rfl
          | true => cases c3.2 hs
        obtain ⟨c6, c7⟩ := c5 (by simp)
        rw [hrep.version, hs]
        refine ⟨_, rfl, ?_, ?_, ?_⟩
        · intro o ho; cases ho; exact ⟨rfl, by simp [MongoOp.isInsert]⟩
        · exact DocRep.setDiff hrep hlt hn (fun v' => hk v' _) hsame c4 c6 c7 c2
        · intro d hd'; simp [docOp?, docOp] at hd'; subst hd'; exact hid

end Splitgill
