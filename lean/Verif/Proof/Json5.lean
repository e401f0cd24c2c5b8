import Verif.Proof.Json4
import Verif.Proof.Places
/-!
# What JSON keeps of data: exists queries, match queries and places
-/

namespace Splitgill

/-- A value that is not lost on the way: anything but NaN and the infinities. -/
def arrives : Value → Bool
  | .float .nan => false
  | .float .pinf => false
  | .float .ninf => false
  | _ => true

mutual
theorem esValues_sent : ∀ v ks, esValues v.sent ks = (esValues v ks).filter arrives
  | .dict d, [] => by rw [Value.sent, esValues, esValues]; rfl
  | .dict d, k :: ks => by rw [Value.sent, esValues, esValues, esItems_sent d k ks]
  | .list l, ks => by rw [Value.sent, esValues, esValues, esElems_sent l ks]
  | .none, ks => by cases ks <;> rfl
  | .bool _, ks => by cases ks <;> rfl
  | .int _, ks => by cases ks <;> rfl
  | .str _, ks => by cases ks <;> rfl
  | .float x, ks => by cases x <;> cases ks <;> rfl
theorem esItems_sent : ∀ d k ks, esItems (sentDict d) k ks = (esItems d k ks).filter arrives
  | [], _, _ => rfl
  | (k', v) :: r, k, ks => by
    rw [sentDict, esItems, esItems]
    split
    · exact esValues_sent v ks
    · exact esItems_sent r k ks
theorem esElems_sent : ∀ l ks, esElems (sentList l) ks = (esElems l ks).filter arrives
  | [], _ => rfl
  | v :: r, ks => by rw [sentList, esElems, esElems, List.filter_append, esValues_sent v ks, esElems_sent r ks]
end

mutual
theorem esUnder_sent (t : PyStr) : ∀ v, esUnder t v.sent = (esUnder t v).filter arrives
  | .dict d => by rw [Value.sent, esUnder, esUnder, esUnderItems_sent t d]
  | .list l => by rw [Value.sent, esUnder, esUnder, esUnderElems_sent t l]
  | .none => rfl
  | .bool _ => rfl
  | .int _ => rfl
  | .str _ => rfl
  | .float x => by cases x <;> rfl
theorem esUnderItems_sent (t : PyStr) : ∀ d, esUnderItems t (sentDict d) = (esUnderItems t d).filter arrives
  | [] => rfl
  | (k, v) :: r => by
    rw [sentDict, esUnderItems, esUnderItems, List.filter_append, List.filter_append, esUnder_sent t v, esUnderItems_sent t r]
    split
    · rw [esValues_sent]
    · rfl
theorem esUnderElems_sent (t : PyStr) : ∀ l, esUnderElems t (sentList l) = (esUnderElems t l).filter arrives
  | [] => rfl
  | v :: r => by rw [sentList, esUnderElems, esUnderElems, List.filter_append, esUnder_sent t v, esUnderElems_sent t r]
end

theorem esCopied_sent (t : PType) : ∀ d, esCopied t (sentDict d) = (esCopied t d).filter arrives
  | [] => rfl
  | (k, v) :: r => by rw [sentDict, esCopied, esCopied, List.filter_append, esUnder_sent, esCopied_sent t r]

theorem esTexts_sent (path : PyStr) (d : Dict) : esTexts path (sentDict d) = (esTexts path d).filter arrives := by
  unfold esTexts
  split
  · exact esCopied_sent _ d
  · rfl
  · split
    · rfl
    · split
      · have := esValues_sent (.dict d)
        simp only [Value.sent] at this
        exact this _
      · rfl

theorem words_arrive (Q : QueryEnv) : ∀ l : List Value, (l.filter arrives).flatMap (esWords Q) = l.flatMap (esWords Q)
  | [] => rfl
  | v :: r => by
    rw [List.filter_cons]
    split
    · rw [List.flatMap_cons, List.flatMap_cons, words_arrive Q r]
    · rename_i h
      rw [List.flatMap_cons, words_arrive Q r]
      have : esWords Q v = [] := by
        cases v <;> first | rfl | (exact absurd rfl h)
      rw [this]; rfl

/-- Match queries do not see the difference. -/
theorem match_sent (Q : QueryEnv) (q : EsMatch) (d : Dict) : q.matches Q (sentDict d) = q.matches Q d := by
  unfold EsMatch.matches
  rw [esTexts_sent, words_arrive]

/-! ### Exists queries -/

mutual
theorem esHas_sent : ∀ v : Value, esHas v.sent = true → esHas v = true
  | .dict d, h => by rw [Value.sent, esHas] at h; rw [esHas]; exact esHasItems_sent d h
  | .list l, h => by rw [Value.sent, esHas] at h; rw [esHas]; exact esHasElems_sent l h
  | .none, h => h
  | .bool _, h => h
  | .int _, h => h
  | .str _, h => h
  | .float _, _ => rfl
theorem esHasItems_sent : ∀ d : Dict, esHasItems (sentDict d) = true → esHasItems d = true
  | [], h => h
  | (k, v) :: r, h => by
    rw [sentDict, esHasItems, Bool.or_eq_true, Bool.and_eq_true] at h
    rw [esHasItems, Bool.or_eq_true, Bool.and_eq_true]
    rcases h with ⟨h1, h2⟩ | h
    · exact .inl ⟨h1, esHas_sent v h2⟩
    · exact .inr (esHasItems_sent r h)
theorem esHasElems_sent : ∀ l : List Value, esHasElems (sentList l) = true → esHasElems l = true
  | [], h => h
  | v :: r, h => by
    rw [sentList, esHasElems, Bool.or_eq_true] at h
    rw [esHasElems, Bool.or_eq_true]
    rcases h with h | h
    · exact .inl (esHas_sent v h)
    · exact .inr (esHasElems_sent r h)
end

theorem sentList_map : ∀ l : List Value, sentList l = l.map Value.sent
  | [] => rfl
  | v :: r => by rw [sentList, sentList_map r]; rfl

theorem getAt_sent : ∀ (p : Path) (v : Value), getAt p v.sent = (getAt p v).map Value.sent
  | [], v => rfl
  | .key k :: p, v => by
    cases v with
    | dict d =>
      rw [Value.sent, getAt, getAt, aget_sent]
      cases aget k d with
      | none => rfl
      | some x => exact getAt_sent p x
    | float x => cases x <;> rfl
    | _ => rfl
  | .idx i :: p, v => by
    cases v with
    | list l =>
      rw [Value.sent, getAt, getAt, sentList_map, List.getElem?_map]
      cases l[i]? with
      | none => rfl
      | some x => exact getAt_sent p x
    | float x => cases x <;> rfl
    | _ => rfl

variable {E : ParseEnv} {o : ParsingOptions}

theorem existsMatches_data (field : PyStr) (d : Dict) :
    existsMatches (existsQuery field) d = true ↔ ∃ p u, keysOf p = splitDots field ∧ getAt p (.dict d) = some u ∧ esHas u = true := by
  have e1 : splitDots (existsQuery field) = "data".toList :: splitDots field := by
    rw [existsQuery, splitDots_append]
    rfl
  have e0 : copiedTo (existsQuery field) = none := by simp [copiedTo, existsQuery]
  unfold existsMatches
  rw [e0, e1]
  dsimp only
  rw [decide_eq_true rfl, Bool.true_and, esExists_iff]

theorem keysOf_fieldNames : ∀ (q : Path) (v w : Value), FieldNames v → getAt q v = some w → ∀ k ∈ keysOf q, FieldName k := by
  intro q
  induction q with
  | nil => intro v w _ _ k hk; cases hk
  | cons a q ih =>
    intro v w hfv hq k hk
    cases a with
    | key k' =>
      cases v with
      | dict e =>
        rw [getAt, Option.bind_eq_some_iff] at hq
        obtain ⟨y, hy, hq⟩ := hq
        rcases List.mem_cons.1 (show k ∈ k' :: keysOf q from hk) with rfl | hk
        · exact hfv.dict k (mem_akeys_of_mem (aget_mem hy))
        · refine ih y w ?_ hq k hk
          intro q' e' hq'
          refine hfv (.key k' :: q') e' ?_
          rw [getAt, hy]
          exact hq'
      | _ => cases hq
    | idx i =>
      cases v with
      | list l =>
        rw [getAt, Option.bind_eq_some_iff] at hq
        obtain ⟨y, hy, hq⟩ := hq
        refine ih y w ?_ hq k hk
        intro q' e' hq'
        refine hfv (.idx i :: q') e' ?_
        rw [getAt, hy]
        exact hq'
      | _ => cases hq

theorem exists_sent (hE : E.PlacesHaveValues) {d : Dict} {pd : ParsedData} (hw : (Value.dict d).wf = true)
    (hf : FieldNames (.dict d)) (h : parse E o d = .ok pd) {field : PyStr} (hk : ∀ k ∈ splitDots field, FieldName k) :
    existsMatches (existsQuery field) (sentDict pd.parsed) = existsMatches (existsQuery field) pd.parsed := by
  rw [Bool.eq_iff_iff]
  constructor
  · intro hx
    obtain ⟨p, u, h1, h2, h3⟩ := (existsMatches_data _ _).1 hx
    have h2' : getAt p (Value.sent (.dict pd.parsed)) = some u := h2
    rw [getAt_sent, Option.map_eq_some_iff] at h2'
    obtain ⟨u', h4, rfl⟩ := h2'
    exact (existsMatches_data _ _).2 ⟨p, u', h1, h4, esHas_sent u' h3⟩
  · intro hx
    obtain ⟨p, v, h1, h2, q, w, h3, h4⟩ := (exists_iff hE hw hf h hk).1 hx
    have hne : keysOf p ≠ [] := by
      intro e
      have h1' : ['.'].intercalate (keysOf p) = field := h1
      rw [e] at h1'
      have : field = [] := by rw [← h1']; rfl
      subst this
      exact (hk [] (by simp [splitDots])).nonempty rfl
    have hkeys : keysOf p = splitDots field := by
      rw [← h1, fieldPath, splitDots_intercalate hne (keysOf_clean hf h2)]
    have hpq : getAt (p ++ q) (.dict d) = some w := by rw [getAt_append, h2]; exact h3
    obtain ⟨pv, h5, h6⟩ := parse_at hw hf h hpq h4
    rw [getAt_append, Option.bind_eq_some_iff] at h5
    obtain ⟨u, h7, h8⟩ := h5
    have h7' : getAt p (.dict (sentDict pd.parsed)) = some u.sent := by
      have := getAt_sent p (.dict pd.parsed)
      rw [h7] at this
      exact this
    refine (existsMatches_data _ _).2 ⟨p, u.sent, hkeys, h7', ?_⟩
    have h8' := getAt_sent q u
    rw [h8] at h8'
    refine esHas_of_getAt q u.sent _ h8' ?_ ?_
    · have ht : aget "_t".toList pv = some (.str (strValue E o w)) := by
        rw [h6 _ (by decide), aget_base (by decide)]
        rfl
      have ht' : aget "_t".toList (sentDict pv) = some (.str (strValue E o w)) := by rw [aget_sent, ht]; rfl
      rw [Value.sent, esHas]
      exact esHasItems_iff.2 ⟨_, _, aget_mem ht', by decide, rfl⟩
    · intro hmem
      have hfv : FieldNames v := by
        intro q' e hq'
        refine hf (p ++ q') e ?_
        rw [getAt_append, h2]
        exact hq'
      exact (keysOf_fieldNames q v w hfv h3 _ hmem).ne_type .unparsed rfl

theorem hasGeo_sent (hE : E.IgnoresOrder) {d : Dict} {pd : ParsedData} (hw : (Value.dict d).wf = true)
    (hf : FieldNames (.dict d)) (h : parse E o d = .ok pd) :
    existsMatches hasGeo (sentDict pd.parsed) = existsMatches hasGeo pd.parsed := by
  show (!(esCopied .geoPoint (sentDict pd.parsed)).isEmpty) = !(esCopied .geoPoint pd.parsed).isEmpty
  rw [esCopied_sent, List.filter_eq_self.2]
  intro s hs
  obtain ⟨ks, _, h2⟩ := (mem_esCopied (parsed_wf hE hw h)).1 hs
  obtain ⟨p, g, _, _, _, h5⟩ := (places_values (by decide) hw hf h ks s).1 h2
  cases h5
  rfl

end Splitgill
