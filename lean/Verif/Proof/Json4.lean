import Verif.Proof.Json3
import Verif.Proof.EndToEnd2
import Verif.Model.Query
/-!
# What JSON keeps of data, and rebuilding
-/

namespace Splitgill

theorem aget_sent (k : PyStr) : ∀ d : Dict, aget k (sentDict d) = (aget k d).map Value.sent
  | [] => rfl
  | (k', v) :: r => by
    rw [sentDict, aget, aget]
    split
    · rfl
    · exact aget_sent k r

theorem sentDict_map : ∀ d : Dict, sentDict d = d.map (fun kv => (kv.1, kv.2.sent))
  | [] => rfl
  | (k, v) :: r => by rw [sentDict, sentDict_map r]; rfl

theorem sentDict_filter (q : PyStr → Bool) (d : Dict) :
    sentDict (d.filter (fun kv => q kv.1)) = (sentDict d).filter (fun kv => q kv.1) := by
  rw [sentDict_map, sentDict_map, List.filter_map]
  rfl

mutual
theorem rebuildValue_sent : ∀ v : Value, rebuildValue v.sent = (rebuildValue v).sent
  | .none => rfl
  | .bool _ => rfl
  | .int _ => rfl
  | .float f => by cases f <;> rfl
  | .str _ => rfl
  | .list l => by rw [Value.sent, rebuildValue, rebuildValue, Value.sent, rebuildList_sent l]
  | .dict d => by
    rw [Value.sent, rebuildValue, rebuildValue, aget_sent]
    cases aget PType.unparsed.name d with
    | some v => rfl
    | none =>
      show Value.dict _ = Value.sent (.dict _)
      rw [Value.sent, rebuildItems_sent d, sentDict_filter isDataField]
theorem rebuildItems_sent : ∀ d : Dict, rebuildItems (sentDict d) = sentDict (rebuildItems d)
  | [] => rfl
  | (k, v) :: r => by rw [sentDict, rebuildItems, rebuildItems, sentDict, rebuildValue_sent v, rebuildItems_sent r]
theorem rebuildList_sent : ∀ l : List Value, rebuildList (sentList l) = sentList (rebuildList l)
  | [] => rfl
  | v :: r => by rw [sentList, rebuildList, rebuildList, sentList, rebuildValue_sent v, rebuildList_sent r]
end

theorem sentDict_length : ∀ d : Dict, (sentDict d).length = d.length
  | [] => rfl
  | (k, v) :: r => by rw [sentDict, List.length_cons, List.length_cons, sentDict_length r]

/-- Scalars that are equal are equal after JSON. -/
def ScalarsSent (c : Value → Value → Bool) : Prop :=
  ∀ a b, a.isScalar = true → b.isScalar = true → c a b = true → a.sent.isScalar = true ∧ b.sent.isScalar = true ∧ c a.sent b.sent = true

theorem eqWith_scalars {c : Value → Value → Bool} {a b : Value} (ha : a.isScalar = true) (hb : b.isScalar = true) :
    eqWith c a b = c a b := by
  cases a <;> first
    | (simp [Value.isScalar] at ha; done)
    | (cases b <;> first | rfl | (simp [Value.isScalar] at hb; done))

mutual
theorem eqWith_sent {c : Value → Value → Bool} (hc : ScalarsSent c) : ∀ a b : Value, eqWith c a b = true →
    eqWith c a.sent b.sent = true
  | .list l, b, h => by
    cases b with
    | list l' =>
      rw [eqWith] at h
      rw [Value.sent, Value.sent, eqWith]
      exact eqListWith_sent hc l l' h
    | _ => simp [eqWith] at h
  | .dict d, b, h => by
    cases b with
    | dict d' =>
      rw [eqWith, Bool.and_eq_true] at h
      rw [Value.sent, Value.sent, eqWith, Bool.and_eq_true, sentDict_length, sentDict_length]
      exact ⟨h.1, eqDictWith_sent hc d d' h.2⟩
    | _ => simp [eqWith] at h
  | .none, b, h => scalar_sent hc rfl h
  | .bool _, b, h => scalar_sent hc rfl h
  | .int _, b, h => scalar_sent hc rfl h
  | .float _, b, h => scalar_sent hc rfl h
  | .str _, b, h => scalar_sent hc rfl h
theorem eqListWith_sent {c : Value → Value → Bool} (hc : ScalarsSent c) : ∀ a b : List Value, eqListWith c a b = true →
    eqListWith c (sentList a) (sentList b) = true
  | [], b, h => by
    cases b with
    | nil => rfl
    | cons => simp [eqListWith] at h
  | v :: r, b, h => by
    cases b with
    | nil => simp [eqListWith] at h
    | cons w s =>
      rw [eqListWith, Bool.and_eq_true] at h
      rw [sentList, sentList, eqListWith, Bool.and_eq_true]
      exact ⟨eqWith_sent hc v w h.1, eqListWith_sent hc r s h.2⟩
theorem eqDictWith_sent {c : Value → Value → Bool} (hc : ScalarsSent c) : ∀ a b : Dict, eqDictWith c a b = true →
    eqDictWith c (sentDict a) (sentDict b) = true
  | [], b, h => by rw [sentDict, eqDictWith]
  | (k, v) :: r, b, h => by
    rw [eqDictWith, Bool.and_eq_true] at h
    rw [sentDict, eqDictWith, Bool.and_eq_true, aget_sent]
    refine ⟨?_, eqDictWith_sent hc r b h.2⟩
    cases hg : aget k b with
    | none => rw [hg] at h; cases h.1
    | some w =>
      rw [hg] at h
      exact eqWith_sent hc v w h.1
theorem scalar_sent {c : Value → Value → Bool} (hc : ScalarsSent c) {a b : Value} (ha : a.isScalar = true) (h : eqWith c a b = true) :
    eqWith c a.sent b.sent = true := by
  have hb : b.isScalar = true := by
    cases a <;> first
      | (simp [Value.isScalar] at ha; done)
      | (cases b <;> first | rfl | (simp [eqWith] at h; done))
  rw [eqWith_scalars ha hb] at h
  obtain ⟨h1, h2, h3⟩ := hc a b ha hb h
  rw [eqWith_scalars h1 h2]
  exact h3
end

theorem strict_sent : ScalarsSent strictScalarEq := by
  intro a b ha hb h
  cases a <;> cases b <;> first
    | (simp [strictScalarEq] at h; done)
    | (simp [Value.isScalar] at ha; done)
    | exact ⟨rfl, rfl, h⟩
    | (rename_i f g
       simp only [strictScalarEq, decide_eq_true_eq] at h
       subst h
       cases f <;> exact ⟨rfl, rfl, by simp [Value.sent, strictScalarEq]⟩)

theorem num_nonfinite {f : PyFloat} {b : Value} (hf : f = .nan ∨ f = .pinf ∨ f = .ninf) (h : b.num = some f) : b = .float f := by
  cases b with
  | float g => cases g <;> rcases hf with rfl | rfl | rfl <;> simp_all [Value.num]
  | _ => rcases hf with rfl | rfl | rfl <;> simp_all [Value.num]

theorem sim_num {a b : Value} (h : simScalarEq a b = true) : a.num = b.num := by
  unfold simScalarEq at h
  split at h
  · rfl
  · rfl
  · split at h
    · rename_i h1 h2
      rw [h1, h2, of_decide_eq_true h]
    · cases h

theorem sent_nonfinite {f : PyFloat} (hf : f = .nan ∨ f = .pinf ∨ f = .ninf) : (Value.float f).sent = .none := by
  rcases hf with rfl | rfl | rfl <;> rfl

theorem sent_scalar {v : Value} (hv : v.isScalar = true) : v.sent = v ∨ ∃ f, v = .float f ∧ (f = .nan ∨ f = .pinf ∨ f = .ninf) := by
  cases v with
  | float f => cases f <;> simp [Value.sent]
  | list l => simp [Value.isScalar] at hv
  | dict d => simp [Value.isScalar] at hv
  | _ => exact .inl rfl

theorem sim_sent : ScalarsSent simScalarEq := by
  intro a b ha hb h
  have hn := sim_num h
  rcases sent_scalar ha with e | ⟨f, rfl, hf⟩
  · rcases sent_scalar hb with e' | ⟨g, rfl, hg⟩
    · rw [e, e']; exact ⟨ha, hb, h⟩
    · have : Value.num (.float g) = some g := by rcases hg with rfl | rfl | rfl <;> rfl
      rw [this] at hn
      rw [num_nonfinite hg hn, sent_nonfinite hg]
      exact ⟨rfl, rfl, rfl⟩
  · have : Value.num (.float f) = some f := by rcases hf with rfl | rfl | rfl <;> rfl
    rw [this] at hn
    rw [num_nonfinite hf hn.symm, sent_nonfinite hf]
    exact ⟨rfl, rfl, rfl⟩

theorem strictEq_sent {a b : Value} (h : strictEq a b = true) : strictEq a.sent b.sent = true :=
  eqWith_sent strict_sent a b h

theorem simEq_sent {a b : Value} (h : simEq a b = true) : simEq a.sent b.sent = true :=
  eqWith_sent sim_sent a b h

/-! ### Values that arrive as they are -/

mutual
theorem sent_finite : ∀ v : Value, AllLeaves Finite v → v.sent = v
  | .none, _ => rfl
  | .bool _, _ => rfl
  | .int _, _ => rfl
  | .float f, h => by
    have h : Finite (.float f) := h
    rcases h with h | ⟨q, h⟩ <;> subst h <;> rfl
  | .str _, _ => rfl
  | .list l, h => by rw [AllLeaves] at h; rw [Value.sent, sentList_finite l h]
  | .dict d, h => by rw [AllLeaves] at h; rw [Value.sent, sentDict_finite d h]
theorem sentList_finite : ∀ l : List Value, AllLeavesList Finite l → sentList l = l
  | [], _ => rfl
  | v :: r, h => by rw [AllLeavesList] at h; rw [sentList, sent_finite v h.1, sentList_finite r h.2]
theorem sentDict_finite : ∀ d : Dict, AllLeavesDict Finite d → sentDict d = d
  | [], _ => rfl
  | (k, v) :: r, h => by rw [AllLeavesDict] at h; rw [sentDict, sent_finite v h.1, sentDict_finite r h.2]
end

/-! ### Queries -/

/-- A test that no NaN and no infinity passes. -/
def OnlyFinite (f : Value → Bool) : Prop := ∀ x : PyFloat, (x = .nan ∨ x = .pinf ∨ x = .ninf) → f (.float x) = false

mutual
theorem any_esValues_sent {f : Value → Bool} (hf : OnlyFinite f) :
    ∀ v ks, (esValues v.sent ks).any f = (esValues v ks).any f
  | .dict d, [] => by rw [Value.sent, esValues, esValues]
  | .dict d, k :: ks => by rw [Value.sent, esValues, esValues, any_esItems_sent hf d k ks]
  | .list l, ks => by rw [Value.sent, esValues, esValues, any_esElems_sent hf l ks]
  | .none, ks => rfl
  | .bool _, ks => rfl
  | .int _, ks => rfl
  | .str _, ks => rfl
  | .float x, ks => by
    rcases sent_scalar (v := .float x) rfl with e | ⟨g, e, hg⟩
    · rw [e]
    · cases e
      rw [sent_nonfinite hg]
      cases ks with
      | nil =>
        rw [show esValues (.float x) [] = [.float x] by rfl, show esValues .none [] = [] by rfl, List.any_cons, hf x hg]
        rfl
      | cons k ks => rfl
theorem any_esItems_sent {f : Value → Bool} (hf : OnlyFinite f) :
    ∀ d k ks, (esItems (sentDict d) k ks).any f = (esItems d k ks).any f
  | [], _, _ => rfl
  | (k', v) :: r, k, ks => by
    rw [sentDict, esItems, esItems]
    split
    · exact any_esValues_sent hf v ks
    · exact any_esItems_sent hf r k ks
theorem any_esElems_sent {f : Value → Bool} (hf : OnlyFinite f) :
    ∀ l ks, (esElems (sentList l) ks).any f = (esElems l ks).any f
  | [], _ => rfl
  | v :: r, ks => by
    rw [sentList, esElems, esElems, List.any_append, List.any_append, any_esValues_sent hf v ks, any_esElems_sent hf r ks]
end

theorem any_esField_sent {f : Option PType → Value → Bool} (hf : ∀ t, OnlyFinite (f t)) (path : PyStr) (d : Dict) :
    (esField path (sentDict d)).1.any (f (esField path (sentDict d)).2) = (esField path d).1.any (f (esField path d).2) := by
  unfold esField
  split
  · rfl
  · rename_i k ks _
    dsimp only
    split
    · have := any_esValues_sent (hf ([PType.keyword, .number, .date, .boolean].find? (fun t => some t.name = ks.getLast?))) (.dict d) ks
      rw [Value.sent] at this
      exact this
    · rfl

theorem term_sent (Q : QueryEnv) (q : EsTerm) (d : Dict) : q.matches Q (sentDict d) = q.matches Q d := by
  refine any_esField_sent (f := fun t s => match t with
    | some .keyword => esTermValue (esKeyword Q) s q.value
    | some .number => esTermValue esDouble s q.value
    | some .date => esTermValue esDate s q.value
    | some .boolean => esTermValue esBool s q.value
    | _ => false) (fun t x hx => ?_) q.path d
  rcases hx with rfl | rfl | rfl <;> dsimp only <;> split <;> rfl

theorem range_sent (Q : QueryEnv) (q : EsRange) (d : Dict) : q.matches Q (sentDict d) = q.matches Q d := by
  refine any_esField_sent (f := fun t s => match t with
    | some .keyword => esRangeValue strLe (esKeyword Q) s q.bounds
    | some .number => esRangeValue (fun a b : ℚ => decide (a ≤ b)) esDouble s q.bounds
    | some .date => esRangeValue (fun a b : ℤ => decide (a ≤ b)) esDate s q.bounds
    | some .boolean => esRangeValue (fun a b : Bool => decide (a ≤ b)) esBool s q.bounds
    | _ => false) (fun t x hx => ?_) q.path d
  rcases hx with rfl | rfl | rfl <;> dsimp only <;> split <;> rfl

end Splitgill
