import Verif.Model.Diff
import Verif.Spec.Value
import Verif.Proof.Value
import Mathlib.Data.List.Perm.Basic
/-!
# Lemmas about `diff` and `patch`
-/

namespace Splitgill

def Comparison.path : Comparison → Path
  | .dict p _ _ => p
  | .list p _ _ => p
def Comparison.left : Comparison → Value
  | .dict _ l _ => .dict l
  | .list _ l _ => .list l
def Comparison.right : Comparison → Value
  | .dict _ _ r => .dict r
  | .list _ _ r => .list r

/-! ## Reading and writing at a path -/

def setAt (x : Value) : Path → Value → Value
  | [], _ => x
  | .key k :: p, .dict d =>
    match aget k d with
    | some v => .dict (aset k (setAt x p v) d)
    | none => .dict d
  | .idx i :: p, .list l =>
    match l[i]? with
    | some v => .list (l.set i (setAt x p v))
    | none => .list l
  | _ :: _, v => v

/-- Neither path is a prefix of the other. -/
def Indep : Path → Path → Prop
  | [], _ => False
  | _, [] => False
  | a :: p, b :: q => a ≠ b ∨ Indep p q

theorem Indep.symm : ∀ {p q : Path}, Indep p q → Indep q p
  | [], _, h => by simp [Indep] at h
  | _ :: _, [], h => by simp [Indep] at h
  | a :: p, b :: q, h => by
    rcases h with h | h
    · exact Or.inl (Ne.symm h)
    · exact Or.inr h.symm

theorem Indep.ne : ∀ {p q : Path}, Indep p q → p ≠ q
  | [], _, h => by simp [Indep] at h
  | _ :: _, [], h => by simp [Indep] at h
  | a :: p, b :: q, h => by
    rcases h with h | h
    · intro e; cases e; exact h rfl
    · intro e; cases e; exact h.ne rfl

theorem Indep.append_left : ∀ {p q : Path} (r : Path), Indep p q → Indep (p ++ r) q
  | [], _, _, h => by simp [Indep] at h
  | _ :: _, [], _, h => by simp [Indep] at h
  | a :: p, b :: q, r, h => by
    rcases h with h | h
    · exact Or.inl h
    · exact Or.inr (h.append_left r)

theorem Indep.append_right {p q : Path} (r : Path) (h : Indep p q) : Indep p (q ++ r) :=
  (h.symm.append_left r).symm

theorem indep_append_same : ∀ {p q r : Path}, Indep q r → Indep (p ++ q) (p ++ r)
  | [], _, _, h => h
  | _ :: p, _, _, h => Or.inr (indep_append_same (p := p) h)

theorem getAt_append : ∀ (p q : Path) (v : Value),
    getAt (p ++ q) v = (getAt p v).bind (getAt q)
  | [], q, v => by simp [getAt]
  | .key k :: p, q, .dict d => by
    simp only [List.cons_append, getAt]
    cases aget k d with
    | none => rfl
    | some w => simpa using getAt_append p q w
  | .idx i :: p, q, .list l => by
    simp only [List.cons_append, getAt]
    cases l[i]? with
    | none => rfl
    | some w => simpa using getAt_append p q w
  | .key k :: p, q, .list _ => rfl
  | .key k :: p, q, .none => rfl
  | .key k :: p, q, .bool _ => rfl
  | .key k :: p, q, .int _ => rfl
  | .key k :: p, q, .float _ => rfl
  | .key k :: p, q, .str _ => rfl
  | .idx k :: p, q, .dict _ => rfl
  | .idx k :: p, q, .none => rfl
  | .idx k :: p, q, .bool _ => rfl
  | .idx k :: p, q, .int _ => rfl
  | .idx k :: p, q, .float _ => rfl
  | .idx k :: p, q, .str _ => rfl

/-- Induction on a path that exists in a value. -/
theorem getAt_ind {P : Path → Value → Value → Prop}
    (nil : ∀ v, P [] v v)
    (key : ∀ k p d v t, aget k d = some v → getAt p v = some t → P p v t →
      P (.key k :: p) (.dict d) t)
    (idx : ∀ i p (l : List Value) v t, l[i]? = some v → getAt p v = some t → P p v t →
      P (.idx i :: p) (.list l) t) :
    ∀ p v t, getAt p v = some t → P p v t
  | [], v, t, h => by simp [getAt] at h; subst h; exact nil v
  | .key k :: p, .dict d, t, h => by
    simp only [getAt] at h
    obtain ⟨v, hv, ht⟩ := Option.bind_eq_some_iff.1 h
    exact key k p d v t hv ht (getAt_ind nil key idx p v t ht)
  | .idx i :: p, .list l, t, h => by
    simp only [getAt] at h
    obtain ⟨v, hv, ht⟩ := Option.bind_eq_some_iff.1 h
    exact idx i p l v t hv ht (getAt_ind nil key idx p v t ht)
  | .key k :: p, .list _, t, h => by simp [getAt] at h
  | .key k :: p, .none, t, h => by simp [getAt] at h
  | .key k :: p, .bool _, t, h => by simp [getAt] at h
  | .key k :: p, .int _, t, h => by simp [getAt] at h
  | .key k :: p, .float _, t, h => by simp [getAt] at h
  | .key k :: p, .str _, t, h => by simp [getAt] at h
  | .idx k :: p, .dict _, t, h => by simp [getAt] at h
  | .idx k :: p, .none, t, h => by simp [getAt] at h
  | .idx k :: p, .bool _, t, h => by simp [getAt] at h
  | .idx k :: p, .int _, t, h => by simp [getAt] at h
  | .idx k :: p, .float _, t, h => by simp [getAt] at h
  | .idx k :: p, .str _, t, h => by simp [getAt] at h

theorem applyAt_eq {o : Ops} {x : Value} : ∀ {p v t}, getAt p v = some t →
    applyOps o t = .ok x → applyAt o p v = .ok (setAt x p v) := by
  intro p v t h
  refine getAt_ind (P := fun p v t => applyOps o t = .ok x → applyAt o p v = .ok (setAt x p v))
    ?_ ?_ ?_ p v t h
  · intro v hv; simpa [applyAt, setAt] using hv
  · intro k p d v t hv _ ih hx
    simp only [applyAt, setAt, hv, ih hx]; rfl
  · intro i p l v t hv _ ih hx
    simp only [applyAt, setAt, hv, ih hx]; rfl

theorem getAt_setAt_self {x : Value} {p v t} (h : getAt p v = some t) :
    getAt p (setAt x p v) = some x := by
  refine getAt_ind (P := fun p v _ => getAt p (setAt x p v) = some x) ?_ ?_ ?_ p v t h
  · intro v; simp [getAt, setAt]
  · intro k p d v t hv _ ih
    simp [getAt, setAt, hv, aget_aset, ih]
  · intro i p l v t hv _ ih
    obtain ⟨hi, hv'⟩ := List.getElem?_eq_some_iff.1 hv
    simp [getAt, setAt, hv', ih, hi]

theorem aset_aget_self {κ α} [DecidableEq κ] {k : κ} {v : α} : ∀ {d : List (κ × α)},
    aget k d = some v → aset k v d = d
  | [], h => by simp at h
  | (k', v') :: r, h => by
    rw [aget_cons] at h
    unfold aset
    split at h
    · next e => subst e; simp at h; subst h; simp
    · next e => rw [if_neg e, aset_aget_self h]

theorem setAt_self {p v t} (h : getAt p v = some t) : setAt t p v = v := by
  refine getAt_ind (P := fun p v t => setAt t p v = v) ?_ ?_ ?_ p v t h
  · intro v; simp [setAt]
  · intro k p d v t hv _ ih
    simp [setAt, hv, ih, aset_aget_self hv]
  · intro i p l v t hv _ ih
    simp only [setAt, hv, ih]
    congr 1
    apply List.ext_getElem?; intro j
    rw [List.getElem?_set]; split
    · next e => subst e; rw [hv]; split <;> simp_all
    · rfl

theorem aset_aset {κ α} [DecidableEq κ] {k : κ} {v w : α} : ∀ {d : List (κ × α)},
    aset k v (aset k w d) = aset k v d
  | [] => by simp [aset]
  | (k', v') :: r => by
    by_cases e : k = k'
    · subst e; simp [aset]
    · simp [aset, e, aset_aset (d := r)]

theorem aset_comm {κ α} [DecidableEq κ] {k k' : κ} {v w : α} (hk : k ≠ k') :
    ∀ {d : List (κ × α)}, k ∈ akeys d → k' ∈ akeys d →
    aset k v (aset k' w d) = aset k' w (aset k v d)
  | [], h, _ => by simp at h
  | (k₁, v₁) :: r, h, h' => by
    simp only [akeys_cons, List.mem_cons] at h h'
    by_cases e : k = k₁
    · subst e
      have e' : k' ≠ k := hk.symm
      simp [aset, e']
    · by_cases e' : k' = k₁
      · subst e'; simp [aset, e]
      · simp [aset, e, e', aset_comm hk (d := r) (h.resolve_left e) (h'.resolve_left e')]

theorem setAt_append {y : Value} : ∀ {p v t} (_ : getAt p v = some t) (q : Path),
    setAt (setAt y q t) p v = setAt y (p ++ q) v := by
  intro p v t h
  refine getAt_ind (P := fun p v t => ∀ q, setAt (setAt y q t) p v = setAt y (p ++ q) v)
    ?_ ?_ ?_ p v t h
  · intro v q; simp [setAt]
  · intro k p d v t hv _ ih q
    simp [setAt, hv, ih]
  · intro i p l v t hv _ ih q
    simp [setAt, hv, ih]

theorem setAt_setAt_self {x y : Value} {p v t} (h : getAt p v = some t) :
    setAt x p (setAt y p v) = setAt x p v := by
  refine getAt_ind (P := fun p v _ => setAt x p (setAt y p v) = setAt x p v) ?_ ?_ ?_ p v t h
  · intro v; simp [setAt]
  · intro k p d v t hv _ ih
    simp [setAt, hv, aget_aset, aset_aset, ih]
  · intro i p l v t hv _ ih
    obtain ⟨hi, hv'⟩ := List.getElem?_eq_some_iff.1 hv
    simp [setAt, hv', hi, ih]

theorem getAt_setAt_indep {x : Value} {p v t} (h : getAt p v = some t) :
    ∀ q, Indep p q → getAt p (setAt x q v) = some t := by
  refine getAt_ind (P := fun p v t => ∀ q, Indep p q → getAt p (setAt x q v) = some t)
    ?_ ?_ ?_ p v t h
  · intro v q hq; simp [Indep] at hq
  · intro k p d v t hv ht ih q hq
    cases q with
    | nil => simp [Indep] at hq
    | cons b q =>
      cases b with
      | idx j => simp [setAt, getAt, hv, ht]
      | key k' =>
        simp only [setAt]
        cases hk' : aget k' d with
        | none => simp [getAt, hv, ht]
        | some w =>
          simp only [getAt, aget_aset]
          by_cases e : k = k'
          · subst e
            rw [hv] at hk'; cases hk'
            simp only [if_true, Option.bind_some]
            rcases hq with hq | hq
            · exact absurd rfl hq
            · exact ih q hq
          · simp [e, hv, ht]
  · intro i p l v t hv ht ih q hq
    cases q with
    | nil => simp [Indep] at hq
    | cons b q =>
      cases b with
      | key k' => simp [setAt, getAt, hv, ht]
      | idx j =>
        simp only [setAt]
        cases hj : l[j]? with
        | none => simp [getAt, hv, ht]
        | some w =>
          simp only [getAt, List.getElem?_set]
          by_cases e : j = i
          · subst e
            rw [hv] at hj; cases hj
            have hi : j < l.length := (List.getElem?_eq_some_iff.1 hv).1
            simp only [if_true, hi]
            rcases hq with hq | hq
            · exact absurd rfl hq
            · simpa using ih q hq
          · simp [e, hv, ht]

theorem setAt_comm {x y : Value} {p v t} (h : getAt p v = some t) :
    ∀ {q u}, Indep p q → getAt q v = some u →
      setAt x p (setAt y q v) = setAt y q (setAt x p v) := by
  refine getAt_ind (P := fun p v _ => ∀ {q u}, Indep p q → getAt q v = some u →
      setAt x p (setAt y q v) = setAt y q (setAt x p v)) ?_ ?_ ?_ p v t h
  · intro v q u hq; simp [Indep] at hq
  · intro k p d v t hv ht ih q u hq hu
    cases q with
    | nil => simp [Indep] at hq
    | cons b q =>
      cases b with
      | idx j => simp [getAt] at hu
      | key k' =>
        simp only [getAt] at hu
        obtain ⟨w, hw, hu⟩ := Option.bind_eq_some_iff.1 hu
        by_cases e : k = k'
        · subst e
          rw [hv] at hw; cases hw
          have hq' : Indep p q := hq.resolve_left (fun h => h rfl)
          simp [setAt, hv, aget_aset, aset_aset, ih hq' hu]
        · have e' : k' ≠ k := fun h => e h.symm
          have hk : k ∈ akeys d := mem_akeys_of_mem (aget_mem hv)
          have hk' : k' ∈ akeys d := mem_akeys_of_mem (aget_mem hw)
          simp [setAt, hv, hw, aget_aset, e, e', aset_comm e hk hk']
  · intro i p l v t hv ht ih q u hq hu
    cases q with
    | nil => simp [Indep] at hq
    | cons b q =>
      cases b with
      | key j => simp [getAt] at hu
      | idx j =>
        simp only [getAt] at hu
        obtain ⟨w, hw, hu⟩ := Option.bind_eq_some_iff.1 hu
        obtain ⟨hi, hv'⟩ := List.getElem?_eq_some_iff.1 hv
        have hj : j < l.length := (List.getElem?_eq_some_iff.1 hw).1
        by_cases e : i = j
        · subst e
          rw [hv] at hw; cases hw
          have hq' : Indep p q := hq.resolve_left (fun h => h rfl)
          simp [setAt, hv', hi, ih hq' hu]
        · have e' : j ≠ i := fun h => e h.symm
          simp [setAt, hv, hw, e, e', List.getElem?_set, List.set_comm _ _ e']

/-! ## The result of patching, as a tree function -/

mutual
/-- What a value `l` becomes when it is patched with the differences between it and `r`. -/
def mergeV : Value → Value → Value
  | .dict a, r =>
    if pyEq (.dict a) r then .dict a
    else match r with
      | .dict b => .dict (mergeD b a ++ b.filter (fun kv => !ahas kv.1 a))
      | r => r
  | .list a, r =>
    if pyEq (.list a) r then .list a
    else match r with
      | .list b => .list (mergeL a b)
      | r => r
  | .none, r => if pyEq .none r then .none else r
  | .bool x, r => if pyEq (.bool x) r then .bool x else r
  | .int x, r => if pyEq (.int x) r then .int x else r
  | .float x, r => if pyEq (.float x) r then .float x else r
  | .str x, r => if pyEq (.str x) r then .str x else r
def mergeD (b : Dict) : Dict → Dict
  | [] => []
  | (k, v) :: rest =>
    match aget k b with
    | none => mergeD b rest
    | some w => (k, mergeV v w) :: mergeD b rest
def mergeL : List Value → List Value → List Value
  | [], bs => bs
  | _ :: _, [] => []
  | a :: as, b :: bs => mergeV a b :: mergeL as bs
end

/-- `mergeV` without the equality test at the top. -/
def mergeC : Value → Value → Value
  | .dict a, .dict b => .dict (mergeD b a ++ b.filter (fun kv => !ahas kv.1 a))
  | .list a, .list b => .list (mergeL a b)
  | _, r => r

theorem mergeV_eq (l r : Value) : mergeV l r = if pyEq l r then l else mergeC l r := by
  cases l <;> cases r <;> simp [mergeV, mergeC]

/-- A container compared with a container of the same kind. -/
def sameKind : Value → Value → Bool
  | .dict _, .dict _ => true
  | .list _, .list _ => true
  | _, _ => false

/-- Value after the node's own changes but before those of its children. -/
def midV (l r : Value) : Value := if pyEq l r then l else if sameKind l r then l else r

def midD (b : Dict) : Dict → Dict
  | [] => []
  | (k, v) :: rest =>
    match aget k b with
    | none => midD b rest
    | some w => (k, midV v w) :: midD b rest

def midL : List Value → List Value → List Value
  | [], bs => bs
  | _ :: _, [] => []
  | a :: as, b :: bs => midV a b :: midL as bs

/-- The comparison for a child. -/
def childC (p : Path) (l r : Value) : List Comparison :=
  if pyEq l r then []
  else match l, r with
    | .dict a, .dict b => [.dict p a b]
    | .list a, .list b => [.list p a b]
    | _, _ => []

theorem dictLoop_cons (path : Path) (right : Dict) (k : PyStr) (v : Value) (rest : Dict) :
    dictLoop path right ((k, v) :: rest) =
      match aget k right with
      | none => dictLoop path right rest
      | some w =>
        ((if pyEq v w || sameKind v w then [] else [(k, w)]) ++ (dictLoop path right rest).1,
          childC (path ++ [.key k]) v w ++ (dictLoop path right rest).2) := by
  rw [dictLoop]
  cases aget k right with
  | none => rfl
  | some w =>
    simp only
    by_cases h : pyEq v w
    · simp [h, childC]
    · cases v <;> cases w <;> simp [h, childC, sameKind]

theorem listLoop_cons (path : Path) (i : Nat) (l r : Value) (ls rs : List Value) :
    listLoop path i (l :: ls) (r :: rs) =
      { changes := (if pyEq l r || sameKind l r then [] else [(i, r)]) ++
          (listLoop path (i + 1) ls rs).changes
        ln := (listLoop path (i + 1) ls rs).ln
        ld := (listLoop path (i + 1) ls rs).ld
        further := childC (path ++ [.idx i]) l r ++ (listLoop path (i + 1) ls rs).further } := by
  conv => lhs; unfold listLoop
  by_cases h : pyEq l r
  · simp [h, childC]
  · cases l <;> cases r <;> simp [h, childC, sameKind]

/-! ### the node op: dicts -/

theorem dictLoop_changes_keys {path : Path} {right : Dict} : ∀ {left : Dict},
    ∀ kv ∈ (dictLoop path right left).1, kv.1 ∈ akeys left
  | [], kv, h => by simp [dictLoop] at h
  | (k, v) :: rest, kv, h => by
    rw [dictLoop_cons] at h
    cases hg : aget k right with
    | none =>
      simp only [hg] at h
      simp [dictLoop_changes_keys kv h]
    | some w =>
      simp only [hg, List.mem_append] at h
      rcases h with h | h
      · split at h <;> simp_all
      · simp [dictLoop_changes_keys kv h]

theorem aupdate_cons_ne {κ α} [DecidableEq κ] {k : κ} {v : α} :
    ∀ {e d : List (κ × α)}, (∀ kv ∈ e, kv.1 ≠ k) →
    aupdate ((k, v) :: d) e = (k, v) :: aupdate d e
  | [], d, _ => rfl
  | (k', v') :: e, d, h => by
    have hk : k' ≠ k := h (k', v') (by simp)
    rw [aupdate_cons, aupdate_cons]
    simp only [aset, hk, if_false]
    exact aupdate_cons_ne (fun kv hkv => h kv (by simp [hkv]))

/-- Left items after `dc`: changed values replaced. -/
def chgD (b : Dict) : Dict → Dict
  | [] => []
  | (k, v) :: rest =>
    (k, match aget k b with | none => v | some w => midV v w) :: chgD b rest

theorem aupdate_changes {path : Path} {b : Dict} : ∀ {a : Dict}, (akeys a).Nodup →
    aupdate a (dictLoop path b a).1 = chgD b a
  | [], _ => rfl
  | (k, v) :: rest, hn => by
    rw [akeys_cons, List.nodup_cons] at hn
    have hne : ∀ kv ∈ (dictLoop path b rest).1, kv.1 ≠ k :=
      fun kv hkv e => hn.1 (e ▸ dictLoop_changes_keys kv hkv)
    rw [dictLoop_cons, chgD]
    cases hg : aget k b with
    | none => simp only; rw [aupdate_cons_ne hne, aupdate_changes hn.2]
    | some w =>
      simp only [midV]
      by_cases h : pyEq v w
      · simp [h, aupdate_cons_ne hne, aupdate_changes hn.2]
      · by_cases h' : sameKind v w
        · simp [h, h', aupdate_cons_ne hne, aupdate_changes hn.2]
        · simp [h, h', aset, aupdate_cons_ne hne, aupdate_changes hn.2]

theorem aupdate_new {κ α} [DecidableEq κ] : ∀ {e d : List (κ × α)}, (akeys e).Nodup →
    (∀ k ∈ akeys e, k ∉ akeys d) → aupdate d e = d ++ e
  | [], d, _, _ => by simp
  | (k, v) :: e, d, hn, h => by
    rw [akeys_cons, List.nodup_cons] at hn
    rw [aupdate_cons, aset_of_not_mem _ _ (h k (by simp)), aupdate_new hn.2]
    · simp
    · intro k' hk'
      simp only [akeys, List.map_append, List.mem_append, List.map_cons, List.map_nil,
        List.mem_singleton, not_or]
      refine ⟨h k' (by simp [hk']), fun e => hn.1 (e ▸ hk')⟩

theorem akeys_chgD {b : Dict} : ∀ {a : Dict}, akeys (chgD b a) = akeys a
  | [] => rfl
  | (k, v) :: rest => by simp [chgD, akeys_chgD (a := rest)]

theorem delKeys_cons_ne {k : PyStr} {v : Value} : ∀ {ks : List PyStr} {d : Dict}, k ∉ ks →
    delKeys ks ((k, v) :: d) = (delKeys ks d).map ((k, v) :: ·)
  | [], d, _ => rfl
  | k' :: ks, d, h => by
    simp only [List.mem_cons, not_or] at h
    have h1 : k' ≠ k := fun e => h.1 e.symm
    have h3 : ahas k' ((k, v) :: d) = ahas k' d := by simp [ahas, aget_cons, h1]
    simp only [delKeys, h3, aerase, h1, if_false]
    split
    · rw [delKeys_cons_ne h.2]
    · rfl

theorem delKeys_deleted {b new : Dict} : ∀ {a : Dict}, (akeys a).Nodup →
    delKeys ((akeys a).filter (fun k => !ahas k b)) (chgD b a ++ new) = .ok (midD b a ++ new)
  | [], _ => rfl
  | (k, v) :: rest, hn => by
    rw [akeys_cons, List.nodup_cons] at hn
    simp only [akeys_cons, chgD, midD, List.cons_append]
    have hk : k ∉ (akeys rest).filter (fun k => !ahas k b) :=
      fun h => hn.1 (List.mem_filter.1 h).1
    cases hg : aget k b with
    | none =>
      have : ahas k b = false := by simp [ahas, hg]
      have h2 : ahas k ((k, v) :: (chgD b rest ++ new)) = true := by simp [ahas, aget_cons]
      simp only [List.filter_cons, this, Bool.not_false, if_true, delKeys, h2, aerase]
      exact delKeys_deleted hn.2
    | some w =>
      have : ahas k b = true := by simp [ahas, hg]
      simp only [List.filter_cons, this, Bool.not_true, Bool.false_eq_true, if_false]
      rw [delKeys_cons_ne hk, delKeys_deleted hn.2]; rfl

theorem updateIf_nonEmpty (d e : Dict) : updateIf d (nonEmpty e) = aupdate d e := by
  unfold nonEmpty; cases e <;> rfl
theorem delKeysIf_nonEmpty (d : Dict) (ks) : delKeysIf d (nonEmpty ks) = delKeys ks d := by
  unfold nonEmpty; cases ks <;> rfl
theorem setIndexesIf_nonEmpty (l : List Value) (cs) :
    setIndexesIf l (nonEmpty cs) = setIndexes cs l := by
  unfold nonEmpty; cases cs <;> rfl

theorem nodup_filter_keys {κ α} {p : κ × α → Bool} {d : List (κ × α)}
    (h : (akeys d).Nodup) : (akeys (d.filter p)).Nodup :=
  h.sublist ((List.filter_sublist).map _)

theorem applyOps_dict {path : Path} {a b : Dict} (ha : (akeys a).Nodup) (hb : (akeys b).Nodup) :
    applyOps { dn := nonEmpty (b.filter (fun kv => !ahas kv.1 a)),
               dd := nonEmpty ((akeys a).filter (fun k => !ahas k b)),
               dc := nonEmpty (dictLoop path b a).1 } (.dict a) =
      .ok (.dict (midD b a ++ b.filter (fun kv => !ahas kv.1 a))) := by
  simp only [applyOps]
  rw [updateIf_nonEmpty, updateIf_nonEmpty, aupdate_changes ha,
    aupdate_new (nodup_filter_keys hb), delKeysIf_nonEmpty]
  · rw [delKeys_deleted ha]; rfl
  · intro k hk
    obtain ⟨⟨k', v⟩, hm, rfl⟩ := List.mem_map.1 hk
    have := (List.mem_filter.1 hm).2
    rw [akeys_chgD]
    simpa [← ahas_iff] using this

/-! ### the node op: lists -/

theorem setIndexes_loop {path : Path} : ∀ {i : Nat} {a b pre : List Value}, pre.length = i →
    ∃ x, setIndexes (listLoop path i a b).changes (pre ++ a) = .ok x ∧
      truncIf (extendIf x (listLoop path i a b).ln) (listLoop path i a b).ld = pre ++ midL a b
  | i, [], [], pre, h => ⟨pre, by simp [listLoop, setIndexes, midL, truncIf, extendIf]⟩
  | i, [], r :: rs, pre, h => ⟨pre, by simp [listLoop, setIndexes, midL, truncIf, extendIf]⟩
  | i, l :: ls, [], pre, h => ⟨pre ++ l :: ls, by
      simp [listLoop, setIndexes, midL, truncIf, extendIf, ← h]⟩
  | i, l :: ls, r :: rs, pre, h => by
    rw [listLoop_cons]
    obtain ⟨x, hx, hx'⟩ := setIndexes_loop (path := path) (i := i + 1) (a := ls) (b := rs)
      (pre := pre ++ [midV l r]) (by simp [h])
    refine ⟨x, ?_, ?_⟩
    · rw [← hx]
      simp only [midV]
      by_cases h1 : pyEq l r
      · simp [h1]
      · by_cases h2 : sameKind l r
        · simp [h1, h2]
        · simp [h1, h2, setIndexes, ← h]
    · simpa [midL] using hx'

theorem applyOps_list {path : Path} {a b : List Value} :
    applyOps { ln := (listLoop path 0 a b).ln, ld := (listLoop path 0 a b).ld,
               lc := nonEmpty (listLoop path 0 a b).changes } (.list a) =
      .ok (.list (midL a b)) := by
  simp only [applyOps]
  rw [setIndexesIf_nonEmpty]
  obtain ⟨x, hx, hx'⟩ := setIndexes_loop (path := path) (i := 0) (a := a) (b := b) (pre := []) rfl
  simp only [List.nil_append] at hx hx'
  rw [hx, ← hx']; rfl

/-- Both sides of a comparison are well-formed. -/
def Comparison.wf (c : Comparison) : Prop := c.left.wf = true ∧ c.right.wf = true

/-- Node value after its own op. -/
def Comparison.mid : Comparison → Value
  | .dict _ a b => .dict (midD b a ++ b.filter (fun kv => !ahas kv.1 a))
  | .list _ a b => .list (midL a b)

theorem nonEmpty_none {α} {l : List α} (h : (nonEmpty l).isSome = false) : l = [] := by
  unfold nonEmpty at h; cases l <;> simp_all

theorem compare_op (c : Comparison) (hw : c.wf) :
    (∀ op, c.compare.1 = some op → op.path = c.path ∧ applyOps op.ops c.left = .ok c.mid) ∧
    (c.compare.1 = none → c.mid = c.left) := by
  cases c with
  | dict p a b =>
    have ha := (wf_dict_iff.1 hw.1).1
    have hb := (wf_dict_iff.1 hw.2).1
    have key := applyOps_dict (path := p) ha hb
    simp only [Comparison.compare, dictCompare, Comparison.left, Comparison.mid, Comparison.path]
    constructor
    · intro op h
      split at h
      · cases h; exact ⟨rfl, key⟩
      · cases h
    · intro h
      split at h
      · cases h
      · next hf =>
        simp only [Ops.truthy, Option.isSome_none, Bool.or_false, Bool.not_eq_true,
          Bool.or_eq_false_iff] at hf
        rw [nonEmpty_none hf.1.1, nonEmpty_none hf.1.2, nonEmpty_none hf.2] at key
        rw [nonEmpty_none hf.1.1]
        simp only [applyOps, nonEmpty, List.isEmpty_nil, if_true] at key
        injection key with key
        exact key.symm
  | list p a b =>
    have key := applyOps_list (path := p) (a := a) (b := b)
    simp only [Comparison.compare, listCompare, Comparison.left, Comparison.mid, Comparison.path]
    constructor
    · intro op h
      split at h
      · cases h; exact ⟨rfl, key⟩
      · cases h
    · intro h
      split at h
      · cases h
      · next hf =>
        simp only [Ops.truthy, Option.isSome_none, Bool.or_false, Bool.false_or, Bool.not_eq_true,
          Bool.or_eq_false_iff, Option.isSome_eq_false_iff, Option.isNone_iff_eq_none] at hf
        have h1 : nonEmpty (listLoop p 0 a b).changes = none := hf.1.1
        rw [h1, hf.1.2, hf.2] at key
        simp only [applyOps] at key
        injection key with key
        exact key.symm

/-! ### further comparisons -/

theorem childC_spec {p : Path} {l r : Value} {c : Comparison} (h : c ∈ childC p l r) :
    c.path = p ∧ c.left = l ∧ c.right = r ∧ pyEq l r = false ∧ sameKind l r = true ∧
      childC p l r = [c] := by
  unfold childC at h ⊢
  split at h
  · simp at h
  · next hp =>
    cases l <;> cases r <;> simp at h <;>
      (subst h; simp [Comparison.path, Comparison.left, Comparison.right, hp, sameKind])

theorem childC_midV {p : Path} {l r : Value} :
    (childC p l r = [] ∧ mergeV l r = midV l r) ∨
    ∃ c, childC p l r = [c] ∧ c.path = p ∧ c.left = l ∧ c.right = r ∧ midV l r = l ∧
      mergeV l r = mergeC l r := by
  rw [mergeV_eq]
  by_cases h : pyEq l r
  · left; simp [childC, midV, h]
  · cases l <;> cases r <;> first
      | (left; simp [childC, midV, h, mergeC, sameKind]; done)
      | (right; simp [childC, midV, h, mergeC, sameKind, Comparison.path, Comparison.left,
          Comparison.right]; done)

/-- Setting the merged value of a child comparison. -/
def mset (s : Value) (c : Comparison) : Value := setAt (mergeC c.left c.right) c.path s

/-- A comparison with its path replaced. -/
def Comparison.withPath (p : Path) : Comparison → Comparison
  | .dict _ a b => .dict p a b
  | .list _ a b => .list p a b

theorem dictLoop_further {path : Path} {b : Dict} : ∀ {a : Dict},
    ∀ c ∈ (dictLoop path b a).2, ∃ k v w, c.path = path ++ [.key k] ∧ (k, v) ∈ a ∧
      aget k b = some w ∧ c.left = v ∧ c.right = w ∧ pyEq v w = false ∧ sameKind v w = true
  | [], c, h => by simp [dictLoop] at h
  | (k, v) :: rest, c, h => by
    rw [dictLoop_cons] at h
    cases hg : aget k b with
    | none =>
      simp only [hg] at h
      obtain ⟨k', v', w, h1, h2, h3⟩ := dictLoop_further c h
      exact ⟨k', v', w, h1, by simp [h2], h3⟩
    | some w =>
      simp only [hg, List.mem_append] at h
      rcases h with h | h
      · obtain ⟨h1, h2, h3, h4, h5, _⟩ := childC_spec h
        exact ⟨k, v, w, h1, by simp, hg, h2, h3, h4, h5⟩
      · obtain ⟨k', v', w, h1, h2, h3⟩ := dictLoop_further c h
        exact ⟨k', v', w, h1, by simp [h2], h3⟩

/-- The paths of the further comparisons are pairwise independent. -/
theorem dictLoop_indep {path : Path} {b : Dict} : ∀ {a : Dict}, (akeys a).Nodup →
    (dictLoop path b a).2.Pairwise (fun c c' => Indep c.path c'.path)
  | [], _ => by simp [dictLoop]
  | (k, v) :: rest, hn => by
    rw [akeys_cons, List.nodup_cons] at hn
    rw [dictLoop_cons]
    cases hg : aget k b with
    | none => exact dictLoop_indep hn.2
    | some w =>
      simp only [List.pairwise_append]
      refine ⟨?_, dictLoop_indep hn.2, ?_⟩
      · rcases childC_midV (p := path ++ [.key k]) (l := v) (r := w) with ⟨h, _⟩ | ⟨c, h, _⟩ <;>
          simp [h]
      · intro c hc c' hc'
        obtain ⟨h1, _⟩ := childC_spec hc
        obtain ⟨k', v', _, h2, h3, _⟩ := dictLoop_further c' hc'
        rw [h1, h2]
        apply indep_append_same
        left
        intro e; cases e
        exact hn.1 (mem_akeys_of_mem h3)

theorem setAt_key_cons_ne {x : Value} {k k' : PyStr} {v : Value} {d : Dict} (h : k' ≠ k) :
    setAt x [.key k'] (.dict ((k, v) :: d)) =
      match setAt x [.key k'] (.dict d) with | .dict e => .dict ((k, v) :: e) | _ => .none := by
  simp only [setAt, aget_cons, h, if_false, aset]
  cases aget k' d <;> rfl

/-- Fold of `mset` with the path shortened to its last element. -/
def mset1 (s : Value) (ec : PathEl × Comparison) : Value :=
  setAt (mergeC ec.2.left ec.2.right) [ec.1] s

def lastEl (c : Comparison) : PathEl := c.path.getLastD (.idx 0)

theorem fold_dict_cons_ne {k : PyStr} {v : Value} : ∀ {cs : List Comparison} {d : Dict},
    (∀ c ∈ cs, ∃ k', lastEl c = .key k' ∧ k' ≠ k) →
    ∃ e, cs.foldl (fun s c => mset1 s (lastEl c, c)) (.dict d) = .dict e ∧
      cs.foldl (fun s c => mset1 s (lastEl c, c)) (.dict ((k, v) :: d)) = .dict ((k, v) :: e)
  | [], d, _ => ⟨d, rfl, rfl⟩
  | c :: cs, d, h => by
    obtain ⟨k', hk', hne⟩ := h c (by simp)
    have : ∃ e, setAt (mergeC c.left c.right) [.key k'] (.dict d) = .dict e := by
      simp only [setAt]; split <;> exact ⟨_, rfl⟩
    obtain ⟨e, he⟩ := this
    simp only [List.foldl_cons, mset1, hk', setAt_key_cons_ne hne, he]
    exact fold_dict_cons_ne (fun c hc => h c (by simp [hc]))

theorem fold_dict {path : Path} {b new : Dict} : ∀ {a : Dict}, (akeys a).Nodup →
    (dictLoop path b a).2.foldl (fun s c => mset1 s (lastEl c, c)) (.dict (midD b a ++ new)) =
      .dict (mergeD b a ++ new)
  | [], _ => rfl
  | (k, v) :: rest, hn => by
    rw [akeys_cons, List.nodup_cons] at hn
    rw [dictLoop_cons, midD, mergeD]
    cases hg : aget k b with
    | none => exact fold_dict hn.2
    | some w =>
      simp only [List.foldl_append, List.cons_append]
      have hne : ∀ c ∈ (dictLoop path b rest).2, ∃ k', lastEl c = .key k' ∧ k' ≠ k := by
        intro c hc
        obtain ⟨k', v', _, h2, h3, _⟩ := dictLoop_further c hc
        exact ⟨k', by simp [lastEl, h2], fun e => hn.1 (e ▸ mem_akeys_of_mem h3)⟩
      rcases childC_midV (p := path ++ [.key k]) (l := v) (r := w) with
        ⟨h, h'⟩ | ⟨c, h, hp, hl, hr, hm, h'⟩
      · rw [h, h', List.foldl_nil]
        obtain ⟨e, he, he'⟩ := fold_dict_cons_ne (v := midV v w) (d := midD b rest ++ new) hne
        rw [he']
        rw [fold_dict hn.2] at he
        cases he; rfl
      · rw [h, List.foldl_cons, List.foldl_nil]
        have : mset1 (.dict ((k, midV v w) :: (midD b rest ++ new))) (lastEl c, c) =
            .dict ((k, mergeV v w) :: (midD b rest ++ new)) := by
          have hlast : lastEl c = .key k := by simp [lastEl, hp]
          simp [mset1, hlast, setAt, aget_cons, aset, hl, hr, h']
        rw [this]
        obtain ⟨e, he, he'⟩ := fold_dict_cons_ne (v := mergeV v w) (d := midD b rest ++ new) hne
        rw [he']
        rw [fold_dict hn.2] at he
        cases he; rfl

theorem listLoop_further {path : Path} : ∀ {i : Nat} {a b : List Value},
    ∀ c ∈ (listLoop path i a b).further, ∃ j v w, c.path = path ++ [.idx (i + j)] ∧
      a[j]? = some v ∧ b[j]? = some w ∧ c.left = v ∧ c.right = w ∧ pyEq v w = false ∧
      sameKind v w = true
  | i, [], [], c, h => by simp [listLoop] at h
  | i, [], r :: rs, c, h => by simp [listLoop] at h
  | i, l :: ls, [], c, h => by simp [listLoop] at h
  | i, l :: ls, r :: rs, c, h => by
    rw [listLoop_cons] at h
    simp only [List.mem_append] at h
    rcases h with h | h
    · obtain ⟨h1, h2, h3, h4, h5, _⟩ := childC_spec h
      exact ⟨0, l, r, by simpa using h1, rfl, rfl, h2, h3, h4, h5⟩
    · obtain ⟨j, v, w, h1, h2⟩ := listLoop_further c h
      refine ⟨j + 1, v, w, ?_, by simpa using h2⟩
      rw [h1]; congr 3; omega

theorem listLoop_indep {path : Path} : ∀ {i : Nat} {a b : List Value},
    (listLoop path i a b).further.Pairwise (fun c c' => Indep c.path c'.path)
  | i, [], [] => by simp [listLoop]
  | i, [], r :: rs => by simp [listLoop]
  | i, l :: ls, [] => by simp [listLoop]
  | i, l :: ls, r :: rs => by
    rw [listLoop_cons]
    simp only [List.pairwise_append]
    refine ⟨?_, listLoop_indep, ?_⟩
    · rcases childC_midV (p := path ++ [.idx i]) (l := l) (r := r) with ⟨h, _⟩ | ⟨c, h, _⟩ <;>
        simp [h]
    · intro c hc c' hc'
      obtain ⟨h1, _⟩ := childC_spec hc
      obtain ⟨j, _, _, h2, _⟩ := listLoop_further c' hc'
      rw [h1, h2]
      apply indep_append_same
      left
      intro e; injection e with e; omega

theorem fold_list {path : Path} : ∀ {i : Nat} {a b pre : List Value}, pre.length = i →
    (listLoop path i a b).further.foldl (fun s c => mset1 s (lastEl c, c))
      (.list (pre ++ midL a b)) = .list (pre ++ mergeL a b)
  | i, [], [], pre, _ => by simp [listLoop, midL, mergeL]
  | i, [], r :: rs, pre, _ => by simp [listLoop, midL, mergeL]
  | i, l :: ls, [], pre, _ => by simp [listLoop, midL, mergeL]
  | i, l :: ls, r :: rs, pre, hpre => by
    rw [listLoop_cons, midL, mergeL]
    simp only [List.foldl_append]
    have key : ∀ x, (listLoop path (i + 1) ls rs).further.foldl (fun s c => mset1 s (lastEl c, c))
        (.list (pre ++ x :: midL ls rs)) = .list (pre ++ x :: mergeL ls rs) := by
      intro x
      have := fold_list (path := path) (i := i + 1) (a := ls) (b := rs) (pre := pre ++ [x])
        (by simp [hpre])
      simpa using this
    rcases childC_midV (p := path ++ [.idx i]) (l := l) (r := r) with
        ⟨h, h'⟩ | ⟨c, h, hp, hl, hr, hm, h'⟩
    · rw [h, h', List.foldl_nil, key]
    · rw [h, List.foldl_cons, List.foldl_nil]
      have : mset1 (.list (pre ++ midV l r :: midL ls rs)) (lastEl c, c) =
          .list (pre ++ mergeV l r :: midL ls rs) := by
        have hlast : lastEl c = .idx i := by simp [lastEl, hp]
        simp [mset1, hlast, setAt, hl, hr, h', ← hpre]
      rw [this, key]

/-! ### the node lemma -/

theorem midD_get {b new : Dict} {k : PyStr} {v w : Value} : ∀ {a : Dict}, (akeys a).Nodup →
    (k, v) ∈ a → aget k b = some w → aget k (midD b a ++ new) = some (midV v w)
  | [], _, h, _ => by simp at h
  | (k', v') :: rest, hn, h, hb => by
    rw [akeys_cons, List.nodup_cons] at hn
    rw [midD]
    rcases List.mem_cons.1 h with e | h'
    · cases e; simp [hb, aget_cons]
    · have hne : k ≠ k' := fun e => hn.1 (e ▸ mem_akeys_of_mem h')
      cases hg : aget k' b with
      | none => exact midD_get hn.2 h' hb
      | some w' => simp [aget_cons, hne, midD_get (new := new) hn.2 h' hb]

theorem midL_get : ∀ {a b : List Value} {j : Nat} {v w : Value}, a[j]? = some v →
    b[j]? = some w → (midL a b)[j]? = some (midV v w)
  | [], _, _, _, _, h, _ => by simp at h
  | _ :: _, [], _, _, _, _, h => by simp at h
  | a :: as, b :: bs, 0, v, w, h1, h2 => by simp at h1 h2; simp [midL, h1, h2]
  | a :: as, b :: bs, j + 1, v, w, h1, h2 => by
    simp only [List.getElem?_cons_succ] at h1 h2
    simpa [midL] using midL_get h1 h2

/-- What the further comparisons of a comparison look like. -/
theorem further_spec (c : Comparison) (hw : c.wf) :
    (∀ f ∈ c.compare.2, f.wf ∧ (∃ e, f.path = c.path ++ [e] ∧ getAt [e] c.mid = some f.left) ∧
      pyEq f.left f.right = false) ∧
    c.compare.2.Pairwise (fun f f' => Indep f.path f'.path) ∧
    c.compare.2.foldl (fun s f => mset1 s (lastEl f, f)) c.mid = mergeC c.left c.right := by
  cases c with
  | dict p a b =>
    have ha := wf_dict_iff.1 hw.1
    have hb := wf_dict_iff.1 hw.2
    refine (show (∀ f ∈ (dictLoop p b a).2, f.wf ∧ (∃ e, f.path = p ++ [e] ∧
      getAt [e] (Value.dict (midD b a ++ b.filter (fun kv => !ahas kv.1 a))) = some f.left) ∧
      pyEq f.left f.right = false) ∧ (dictLoop p b a).2.Pairwise _ ∧
      (dictLoop p b a).2.foldl _ _ = _ from ?_)
    refine ⟨?_, dictLoop_indep ha.1, fold_dict ha.1⟩
    intro f hf
    obtain ⟨k, v, w, h1, h2, h3, h4, h5, h6, h7⟩ := dictLoop_further f hf
    refine ⟨⟨h4 ▸ ha.2 _ _ h2, h5 ▸ hb.2 _ _ (aget_mem h3)⟩, ⟨.key k, h1, ?_⟩, by rw [h4, h5, h6]⟩
    simp [getAt, midD_get ha.1 h2 h3, midV, h6, h7, h4]
  | list p a b =>
    have ha := wf_list_iff.1 hw.1
    have hb := wf_list_iff.1 hw.2
    refine (show (∀ f ∈ (listLoop p 0 a b).further, f.wf ∧ (∃ e, f.path = p ++ [e] ∧
      getAt [e] (Value.list (midL a b)) = some f.left) ∧
      pyEq f.left f.right = false) ∧ (listLoop p 0 a b).further.Pairwise _ ∧
      (listLoop p 0 a b).further.foldl _ _ = _ from ?_)
    refine ⟨?_, listLoop_indep, fold_list (path := p) (i := 0) (a := a) (b := b) (pre := []) rfl⟩
    intro f hf
    obtain ⟨j, v, w, h1, h2, h3, h4, h5, h6, h7⟩ := listLoop_further f hf
    refine ⟨⟨h4 ▸ ha _ (List.mem_of_getElem? h2), h5 ▸ hb _ (List.mem_of_getElem? h3)⟩,
      ⟨.idx j, by simpa using h1, ?_⟩, by rw [h4, h5, h6]⟩
    simp [getAt, midL_get h2 h3, midV, h6, h7, h4]

/-! ### the queue -/

/-- Total size of the left sides in the queue. -/
def weight (q : List Comparison) : Nat := (q.map (fun c => c.left.size)).sum

theorem size_pos (v : Value) : 0 < v.size := by cases v <;> simp [Value.size] <;> omega

theorem childC_weight {p : Path} {l r : Value} : weight (childC p l r) ≤ l.size := by
  rcases childC_midV (p := p) (l := l) (r := r) with ⟨h, _⟩ | ⟨c, h, _, hl, _⟩
  · simp [h, weight]
  · simp [h, weight, hl]

theorem weight_append (q q' : List Comparison) : weight (q ++ q') = weight q + weight q' := by
  simp [weight]

theorem dictLoop_weight {path : Path} {b : Dict} : ∀ {a : Dict},
    weight (dictLoop path b a).2 ≤ sizeDict a
  | [] => by simp [dictLoop, weight]
  | (k, v) :: rest => by
    rw [dictLoop_cons, sizeDict]
    have ih := dictLoop_weight (path := path) (b := b) (a := rest)
    cases aget k b with
    | none => simp only; omega
    | some w =>
      simp only [weight_append]
      have := childC_weight (p := path ++ [.key k]) (l := v) (r := w)
      omega

theorem listLoop_weight {path : Path} : ∀ {i : Nat} {a b : List Value},
    weight (listLoop path i a b).further ≤ sizeList a
  | _, [], [] => by simp [listLoop, weight]
  | _, [], _ :: _ => by simp [listLoop, weight]
  | _, _ :: _, [] => by simp [listLoop, weight]
  | i, l :: ls, r :: rs => by
    rw [listLoop_cons, sizeList]
    have ih := listLoop_weight (path := path) (i := i + 1) (a := ls) (b := rs)
    simp only [weight_append]
    have := childC_weight (p := path ++ [.idx i]) (l := l) (r := r)
    omega

theorem compare_weight (c : Comparison) : weight c.compare.2 < c.left.size := by
  cases c with
  | dict p a b =>
    have := dictLoop_weight (path := p) (b := b) (a := a)
    simp only [Comparison.compare, dictCompare, Comparison.left, Value.size]; omega
  | list p a b =>
    have := listLoop_weight (path := p) (i := 0) (b := b) (a := a)
    simp only [Comparison.compare, listCompare, Comparison.left, Value.size]; omega

theorem weight_step {c : Comparison} {q : List Comparison} {fuel : Nat}
    (h : weight (c :: q) ≤ fuel + 1) : weight (q ++ c.compare.2) ≤ fuel := by
  have := compare_weight c
  rw [weight_append]
  simp only [weight, List.map_cons, List.sum_cons] at h this ⊢
  omega

theorem weight_pos {c : Comparison} {q : List Comparison} : 0 < weight (c :: q) := by
  have := size_pos c.left
  simp only [weight, List.map_cons, List.sum_cons]; omega

/-- The fuel of `bfs` is not a restriction: any larger amount gives the same result. -/
theorem bfs_fuel : ∀ (fuel : Nat) (q : List Comparison) (more : Nat), weight q ≤ fuel →
    bfs (fuel + more) q = bfs fuel q
  | 0, [], more, _ => by cases more <;> simp [bfs]
  | 0, c :: q, more, h => absurd h (by have := weight_pos (c := c) (q := q); omega)
  | fuel + 1, [], more, _ => by
    rw [show fuel + 1 + more = (fuel + more) + 1 by omega]; simp [bfs]
  | fuel + 1, c :: q, more, h => by
    rw [show fuel + 1 + more = (fuel + more) + 1 by omega]
    simp only [bfs]
    rw [bfs_fuel fuel _ more (weight_step h)]

structure QueueInv (q : List Comparison) (cur : Value) : Prop where
  wf : ∀ c ∈ q, c.wf
  indep : q.Pairwise (fun c c' => Indep c.path c'.path)
  left : ∀ c ∈ q, getAt c.path cur = some c.left

theorem mset1_append {c : Comparison} {s cur : Value} {f : Comparison} {e : PathEl}
    (h : getAt c.path cur = some s) (hf : f.path = c.path ++ [e]) :
    mset cur f = setAt (mset1 s (lastEl f, f)) c.path cur := by
  have : lastEl f = e := by simp [lastEl, hf]
  rw [mset, mset1, this, setAt_append h, hf]

theorem fold_further {c : Comparison} : ∀ {fs : List Comparison} {cur s : Value},
    (∀ f ∈ fs, ∃ e, f.path = c.path ++ [e]) → getAt c.path cur = some s →
    fs.foldl mset cur = setAt (fs.foldl (fun s f => mset1 s (lastEl f, f)) s) c.path cur
  | [], cur, s, _, h => by simp [setAt_self h]
  | f :: fs, cur, s, hf, h => by
    obtain ⟨e, he⟩ := hf f (by simp)
    rw [List.foldl_cons, List.foldl_cons, mset1_append h he,
      fold_further (fun f hf' => hf f (by simp [hf'])) (getAt_setAt_self h), setAt_setAt_self h]

theorem getAt_mset {c f : Comparison} {cur t : Value} (h : getAt c.path cur = some t)
    (hi : Indep c.path f.path) : getAt c.path (mset cur f) = some t :=
  getAt_setAt_indep h _ hi

theorem fold_comm : ∀ {q : List Comparison} {c : Comparison} {cur t : Value},
    getAt c.path cur = some t → (∀ f ∈ q, Indep c.path f.path) →
    (∀ f ∈ q, ∃ u, getAt f.path cur = some u) → q.Pairwise (fun c c' => Indep c.path c'.path) →
    mset (q.foldl mset cur) c = q.foldl mset (mset cur c)
  | [], _, _, _, _, _, _, _ => rfl
  | f :: q, c, cur, t, h, hi, hu, hp => by
    rw [List.pairwise_cons] at hp
    obtain ⟨u, hu'⟩ := hu f (by simp)
    rw [List.foldl_cons, List.foldl_cons]
    rw [fold_comm (t := t) (getAt_mset h (hi f (by simp))) (fun g hg => hi g (by simp [hg])) ?_ hp.2]
    · rw [mset, mset, mset, mset, setAt_comm h (hi f (by simp)) hu']
    · intro g hg
      obtain ⟨w, hw⟩ := hu g (by simp [hg])
      exact ⟨w, getAt_mset hw (hp.1 g hg).symm⟩

/-- Invariant kept by one iteration. -/
theorem queueInv_step {c : Comparison} {q : List Comparison} {cur : Value}
    (h : QueueInv (c :: q) cur) :
    QueueInv (q ++ c.compare.2) (setAt c.mid c.path cur) ∧
    (q ++ c.compare.2).foldl mset (setAt c.mid c.path cur) = (c :: q).foldl mset cur := by
  have hcw := h.wf c (by simp)
  obtain ⟨hs, hp, hm⟩ := further_spec c hcw
  have hc := h.left c (by simp)
  have hpw := List.pairwise_cons.1 h.indep
  have hq : ∀ f ∈ q, getAt f.path (setAt c.mid c.path cur) = some f.left := fun f hf =>
    getAt_setAt_indep (h.left f (by simp [hf])) _ (hpw.1 f hf).symm
  constructor
  · refine ⟨?_, ?_, ?_⟩
    · intro f hf
      rcases List.mem_append.1 hf with hf | hf
      · exact h.wf f (by simp [hf])
      · exact (hs f hf).1
    · rw [List.pairwise_append]
      refine ⟨hpw.2, hp, fun f hf g hg => ?_⟩
      obtain ⟨e, he, _⟩ := (hs g hg).2.1
      rw [he]
      exact ((hpw.1 f hf).append_left _).symm
    · intro f hf
      rcases List.mem_append.1 hf with hf | hf
      · exact hq f hf
      · obtain ⟨e, he, hl⟩ := (hs f hf).2.1
        rw [he, getAt_append, getAt_setAt_self hc]
        exact hl
  · -- final value
    have hcq : getAt c.path (q.foldl mset (setAt c.mid c.path cur)) = some c.mid := by
      have : ∀ (q : List Comparison) (v : Value), (∀ f ∈ q, Indep c.path f.path) →
          getAt c.path v = some c.mid → getAt c.path (q.foldl mset v) = some c.mid := by
        intro q
        induction q with
        | nil => intro v _ hv; exact hv
        | cons f q ih =>
          intro v hi hv
          exact ih _ (fun g hg => hi g (by simp [hg])) (getAt_mset hv (hi f (by simp)))
      exact this q _ hpw.1 (getAt_setAt_self hc)
    rw [List.foldl_append, fold_further (fun f hf => let ⟨e, he, _⟩ := (hs f hf).2.1; ⟨e, he⟩) hcq,
      hm]
    have h1 := fold_comm (q := q) (c := c) (cur := setAt c.mid c.path cur) (t := c.mid)
      (getAt_setAt_self hc) hpw.1 (fun f hf => ⟨_, hq f hf⟩) hpw.2
    rw [mset] at h1
    rw [h1, List.foldl_cons, mset, mset, setAt_setAt_self hc]

theorem patch_bfs : ∀ (fuel : Nat) (q : List Comparison) (cur : Value), weight q ≤ fuel →
    QueueInv q cur → patch cur (bfs fuel q) = .ok (q.foldl mset cur)
  | 0, [], cur, _, _ => rfl
  | 0, c :: q, cur, h, _ => absurd h (by have := weight_pos (c := c) (q := q); omega)
  | fuel + 1, [], cur, _, _ => rfl
  | fuel + 1, c :: q, cur, h, hi => by
    obtain ⟨hi', hf⟩ := queueInv_step hi
    obtain ⟨ho, hn⟩ := compare_op c (hi.wf c (by simp))
    have ih := patch_bfs fuel (q ++ c.compare.2) _ (weight_step h) hi'
    have hc := hi.left c (by simp)
    simp only [bfs]
    cases hop : c.compare.1 with
    | none =>
      rw [hn hop, setAt_self hc] at ih hf
      rw [← hf, ← ih]; rfl
    | some op =>
      obtain ⟨hpath, happ⟩ := ho op hop
      rw [← hf, ← ih]
      simp only [Option.toList_some, List.singleton_append, patch, List.foldlM_cons, hpath,
        applyAt_eq hc happ]
      rfl

/-- Patching the base with the diff gives the merged value. -/
theorem patch_diff {base new : Dict} (hb : (Value.dict base).wf = true)
    (hn : (Value.dict new).wf = true) :
    ∃ ops, diff (.dict base) (.dict new) = .ok ops ∧
      patch (.dict base) ops = .ok (mergeV (.dict base) (.dict new)) := by
  by_cases h : pyEq (.dict base) (.dict new)
  · exact ⟨[], by simp [diff, h], by rw [mergeV_eq, if_pos h]; rfl⟩
  · refine ⟨_, by simp only [diff, h]; rfl, ?_⟩
    rw [patch_bfs _ _ _ (by simp [weight, Comparison.left])]
    · rw [mergeV_eq, if_neg h]; rfl
    · refine ⟨?_, by simp, ?_⟩
      · intro c hc; simp at hc; subst hc; exact ⟨hb, hn⟩
      · intro c hc; simp at hc; subst hc; rfl

/-! ### the merged value equals the new value -/

theorem mem_mergeD {b : Dict} {k : PyStr} {x : Value} : ∀ {a : Dict}, (k, x) ∈ mergeD b a ↔
    ∃ v w, (k, v) ∈ a ∧ aget k b = some w ∧ x = mergeV v w
  | [] => by simp [mergeD]
  | (k', v') :: rest => by
    rw [mergeD]
    constructor
    · intro h
      cases hg : aget k' b with
      | none =>
        rw [hg] at h
        obtain ⟨v, w, h1, h2⟩ := mem_mergeD.1 h
        exact ⟨v, w, by simp [h1], h2⟩
      | some w' =>
        rw [hg] at h
        rcases List.mem_cons.1 h with e | h
        · cases e; exact ⟨v', w', by simp, hg, rfl⟩
        · obtain ⟨v, w, h1, h2⟩ := mem_mergeD.1 h
          exact ⟨v, w, by simp [h1], h2⟩
    · rintro ⟨v, w, h1, h2, rfl⟩
      rcases List.mem_cons.1 h1 with e | h1
      · cases e; simp [h2]
      · have := mem_mergeD.2 ⟨v, w, h1, h2, rfl⟩
        split
        · exact this
        · exact List.mem_cons_of_mem _ this

theorem akeys_mergeD {b : Dict} : ∀ {a : Dict},
    akeys (mergeD b a) = (akeys a).filter (fun k => ahas k b)
  | [] => rfl
  | (k', v') :: rest => by
    rw [mergeD]
    cases hg : aget k' b with
    | none => simp [akeys_mergeD (a := rest), List.filter_cons, ahas, hg]
    | some w' => simp [akeys_mergeD (a := rest), List.filter_cons, ahas, hg]

theorem nodup_mergeD_append {a b : Dict} (ha : (akeys a).Nodup) (hb : (akeys b).Nodup) :
    (akeys (mergeD b a ++ b.filter (fun kv => !ahas kv.1 a))).Nodup := by
  have : akeys (mergeD b a ++ b.filter (fun kv => !ahas kv.1 a)) =
      akeys (mergeD b a) ++ akeys (b.filter (fun kv => !ahas kv.1 a)) := by simp [akeys]
  rw [this, akeys_mergeD, List.nodup_append]
  refine ⟨ha.filter _, nodup_filter_keys hb, ?_⟩
  intro k hk k' hk' e
  subst e
  obtain ⟨⟨k'', v⟩, hm, rfl⟩ := List.mem_map.1 hk'
  have h1 := (List.mem_filter.1 hm).2
  have h2 := (List.mem_filter.1 hk).1
  simp [← ahas_iff] at h1 h2
  simp [h1] at h2

theorem mergeV_wf : ∀ (l r : Value), l.wf = true → r.wf = true → (mergeV l r).wf = true := by
  refine Value.ind' ?_ ?_ ?_
  · intro l hs r hl hr
    rw [mergeV_eq]; split
    · exact hl
    · cases l <;> simp_all [mergeC, Value.isScalar]
  · intro l ih r hl hr
    rw [mergeV_eq]; split
    · exact hl
    · cases r with
      | list b =>
        simp only [mergeC]
        rw [wf_list_iff] at *
        clear * - ih hl hr
        induction l generalizing b with
        | nil => simpa [mergeL] using hr
        | cons a as ih' =>
          cases b with
          | nil => simp [mergeL]
          | cons b bs =>
            simp only [mergeL, List.mem_cons, forall_eq_or_imp]
            refine ⟨ih a (by simp) b (hl a (by simp)) (hr b (by simp)), ?_⟩
            exact ih' (fun v hv => ih v (by simp [hv])) (fun v hv => hl v (by simp [hv])) bs
              (fun v hv => hr v (by simp [hv]))
      | _ => simpa [mergeC] using hr
  · intro d ih r hl hr
    rw [mergeV_eq]; split
    · exact hl
    · cases r with
      | dict b =>
        simp only [mergeC]
        rw [wf_dict_iff] at *
        refine ⟨nodup_mergeD_append hl.1 hr.1, ?_⟩
        intro k v hm
        rcases List.mem_append.1 hm with hm | hm
        · obtain ⟨v', w, h1, h2, rfl⟩ := mem_mergeD.1 hm
          exact ih k v' h1 w (hl.2 _ _ h1) (hr.2 _ _ (aget_mem h2))
        · exact hr.2 _ _ (List.mem_filter.1 hm).1
      | _ => simpa [mergeC] using hr

/-- Any structural equality that contains `==` on the scalars of the two sides and is reflexive
holds between the merged value and the new value. `S l r` says the scalars of `l` and `r` that are
`==` are related by `c`. -/
theorem mergeV_eqWith {c : Value → Value → Bool} (hrefl : ∀ v, v.isScalar = true → c v v = true)
    {S : Value → Value → Prop}
    (hS : ∀ l r, S l r → pyEq l r = true → eqWith c l r = true)
    (hSl : ∀ (a b : List Value) (i : Nat) v w, S (.list a) (.list b) → a[i]? = some v → b[i]? = some w →
      S v w)
    (hSd : ∀ (a b : Dict) k v w, S (.dict a) (.dict b) → (k, v) ∈ a → (k, w) ∈ b → S v w) :
    ∀ (l r : Value), l.wf = true → r.wf = true → S l r → eqWith c (mergeV l r) r = true := by
  refine Value.ind' ?_ ?_ ?_
  · intro l hs r hl hr h
    rw [mergeV_eq]; split
    · next hp => exact hS l r h hp
    · have : mergeC l r = r := by cases l <;> simp_all [mergeC, Value.isScalar]
      rw [this]; exact eqWith_refl hrefl r hr
  · intro l ih r hl hr h
    rw [mergeV_eq]; split
    · next hp => exact hS _ _ h hp
    · cases r with
      | list b =>
        simp only [mergeC]
        rw [eqWith_list, eqListWith_iff]
        rw [wf_list_iff] at *
        have hSl' := fun i v w => hSl l b i v w h
        clear * - ih hl hr hSl' hrefl
        induction l generalizing b with
        | nil =>
          rw [mergeL, List.forall₂_same]
          exact fun v hv => eqWith_refl hrefl v (hr v hv)
        | cons a as ih' =>
          cases b with
          | nil => simp [mergeL]
          | cons b bs =>
            rw [mergeL]
            refine List.Forall₂.cons (ih a (by simp) b (hl a (by simp)) (hr b (by simp))
              (hSl' 0 a b rfl rfl)) ?_
            exact ih' (fun v hv => ih v (by simp [hv])) (fun v hv => hl v (by simp [hv])) bs
              (fun v hv => hr v (by simp [hv]))
              (fun i v w h1 h2 => hSl' (i + 1) v w (by simpa using h1) (by simpa using h2))
      | _ => simpa [mergeC] using eqWith_refl hrefl _ hr
  · intro d ih r hl hr h
    rw [mergeV_eq]; split
    · next hp => exact hS _ _ h hp
    · cases r with
      | dict b =>
        simp only [mergeC]
        rw [wf_dict_iff] at hl hr
        rw [eqWith_dict_iff' (nodup_mergeD_append hl.1 hr.1) hr.1]
        constructor
        · intro k
          have : akeys (mergeD b d ++ b.filter (fun kv => !ahas kv.1 d)) =
            akeys (mergeD b d) ++ akeys (b.filter (fun kv => !ahas kv.1 d)) := by simp [akeys]
          rw [this, List.mem_append, akeys_mergeD, List.mem_filter, ahas_iff]
          constructor
          · rintro (h | h)
            · exact h.2
            · obtain ⟨⟨k', v⟩, hm, rfl⟩ := List.mem_map.1 h
              exact mem_akeys_of_mem (List.mem_filter.1 hm).1
          · intro hk
            by_cases hd : k ∈ akeys d
            · exact Or.inl ⟨hd, hk⟩
            · right
              obtain ⟨⟨k', v⟩, hm, rfl⟩ := List.mem_map.1 hk
              refine List.mem_map.2 ⟨_, List.mem_filter.2 ⟨hm, ?_⟩, rfl⟩
              simpa [ahas_false_iff] using hd
        · intro k x w hx hw
          rcases List.mem_append.1 (aget_mem hx) with hm | hm
          · obtain ⟨v', w', h1, h2, rfl⟩ := mem_mergeD.1 hm
            rw [hw] at h2; cases h2
            exact ih k v' h1 w (hl.2 _ _ h1) (hr.2 _ _ (aget_mem hw))
              (hSd _ _ k v' w h h1 (aget_mem hw))
          · have := aget_of_mem hr.1 (List.mem_filter.1 hm).1
            rw [hw] at this; cases this
            exact eqWith_refl hrefl _ (hr.2 _ _ (aget_mem hw))
      | _ => simpa [mergeC] using eqWith_refl hrefl _ hr

theorem mergeV_simEq {l r : Value} (hl : l.wf = true) (hr : r.wf = true) :
    simEq (mergeV l r) r = true :=
  mergeV_eqWith (S := fun _ _ => True) (fun _ => simScalarEq_refl) (fun _ _ _ => simEq_of_pyEq)
    (fun _ _ _ _ _ _ _ _ => trivial) (fun _ _ _ _ _ _ _ _ => trivial) l r hl hr trivial

end Splitgill
