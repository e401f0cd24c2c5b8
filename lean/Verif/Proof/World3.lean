import Verif.Proof.World2
import Verif.Proof.Reach
/-! # Effects of the calls on the data and options of each database -/

namespace Splitgill

theorem erase_append_self {l : List PyStr} {x : PyStr} (h : x ∉ l) : (l ++ [x]).erase x = l := by
  rw [List.erase_append_right _ h]; simp

theorem commitColl_gets (v : Int) (c : Coll) : Committed [v] c (commitColl v c) := by
  induction c with
  | nil => exact .nil
  | cons d c ih =>
    refine .cons ?_ ih
    dsimp only
    by_cases h : d.version.isNone = true
    · rw [if_pos h]; exact .inr ⟨Option.isNone_iff_eq_none.1 h, v, by simp, rfl⟩
    · rw [if_neg h]; exact .inl ⟨by simpa using h, rfl⟩

theorem hasUncommittedData_iff {m : Mongo} {db : PyStr} : hasUncommittedData (m.data db) = true ↔ PendingData m db := by
  simp [hasUncommittedData, PendingData]

theorem hasUncommittedOptions_iff {m : Mongo} : hasUncommittedOptions m = true ↔ ∃ d ∈ m.options, d.version = none := by
  simp [hasUncommittedOptions]

theorem commitColl_clean (v : Int) (c : Coll) : ∀ d ∈ commitColl v c, d.version ≠ none := by
  intro d hd
  rw [commitColl, List.mem_map] at hd
  obtain ⟨d', _, rfl⟩ := hd
  split
  · simp
  · rename_i h; simpa using h

theorem commitOptions_clean (v : Int) (c : List OptDoc) : ∀ d ∈ commitOptions v c, d.version ≠ none := by
  intro d hd
  rw [commitOptions, List.mem_map] at hd
  obtain ⟨d', _, rfl⟩ := hd
  split
  · simp
  · rename_i h; simpa using h

/-- The options just before they get their version. -/
def withDefaults (db : PyStr) (m : Mongo) : List OptDoc :=
  if hasOptions m || hasUncommittedOptions m then m.options else m.options ++ [⟨db, none, defaultOptions.toDoc⟩]

theorem no_options {m : Mongo} (h1 : hasOptions m = false) (h2 : hasUncommittedOptions m = false) : m.options = [] := by
  cases h : m.options with
  | nil => rfl
  | cons d os =>
    rw [hasOptions, h] at h1; rw [hasUncommittedOptions, h] at h2
    cases hv : d.version <;> simp [hv] at h1 h2

theorem defaults_eq {m : Mongo} {db : PyStr} :
    (if !hasOptions m && !hasUncommittedOptions m then updateOptionsNoCommit db defaultOptions m else m) =
      { m with options := withDefaults db m } := by
  unfold withDefaults
  by_cases h1 : hasOptions m = true
  · simp [h1]
  · by_cases h2 : hasUncommittedOptions m = true
    · simp [h2]
    · have h0 := no_options (by simpa using h1) (by simpa using h2)
      have hl : latestOptions db m = none := by simp [latestOptions, getOptions, h0]
      simp [h1, h2, updateOptionsNoCommit, hl, sameAsLatest, insertOptions]

/-- What a commit that gets the lock does. -/
theorem commit_eq {db : PyStr} {clock : Int} {m : Mongo} (hl : db ∉ m.locks) :
    commit db clock m =
      if hasUncommittedData (m.data db) || hasUncommittedOptions m then
        (.ok (some clock), { data := (m.setData db (commitColl clock (m.data db))).data,
                             options := commitOptions clock (withDefaults db m), locks := m.locks })
      else (.ok none, m) := by
  rw [commit_free hl]
  simp only [fin]
  have h1 : ∀ m' : Mongo, m' = { m with locks := m.locks ++ [db] } → hasUncommittedOptions m' = hasUncommittedOptions m := by
    rintro _ rfl; rfl
  have h2 : ∀ m' : Mongo, m' = { m with locks := m.locks ++ [db] } → hasOptions m' = hasOptions m := by
    rintro _ rfl; rfl
  by_cases h : (hasUncommittedData (m.data db) || hasUncommittedOptions m) = true
  · rw [if_pos h, if_neg]
    · simp only [finOptions]
      rw [defaults_eq]
      simp only [finUpdate, release, Mongo.setData, withDefaults, hasOptions, hasUncommittedOptions]
      rw [erase_append_self hl]
      rfl
    · rw [Bool.or_eq_true] at h
      simp only [hasUncommittedOptions] at h ⊢
      rcases h with h | h <;> simp [h]
  · rw [if_neg h, if_pos]
    · simp only [release]
      rw [erase_append_self hl]
    · simp only [hasUncommittedOptions] at h ⊢
      simpa using h

theorem commit_locks {db : PyStr} {clock : Int} {m : Mongo} : (commit db clock m).2.locks = m.locks := by
  by_cases h : db ∈ m.locks
  · rw [commit_locked h]
  · rw [commit_eq h]; split <;> rfl

theorem commit_data_other {db b : PyStr} {clock : Int} {m : Mongo} (hb : b ≠ db) :
    (commit db clock m).2.data b = m.data b := by
  by_cases h : db ∈ m.locks
  · rw [commit_locked h]
  · rw [commit_eq h]; split <;> simp [Mongo.setData, hb]

/-! ## Options -/

theorem foldl_aset_keys {α : Type} (f : OptDoc → α) (l : List OptDoc) (acc : List (Option Int × α)) :
    ∀ k, k ∈ akeys (l.foldl (fun acc d => aset d.version (f d) acc) acc) ↔ k ∈ akeys acc ∨ ∃ d ∈ l, d.version = k := by
  induction l generalizing acc with
  | nil => simp
  | cons d l ih =>
    intro k
    rw [List.foldl_cons, ih, mem_akeys_aset]
    constructor
    · rintro ((h | h) | ⟨x, h1, h2⟩)
      · exact .inr ⟨d, by simp, h.symm⟩
      · exact .inl h
      · exact .inr ⟨x, by simp [h1], h2⟩
    · rintro (h | ⟨x, h1, h2⟩)
      · exact .inl (.inr h)
      · rcases List.mem_cons.1 h1 with rfl | h1
        · exact .inl (.inl h2.symm)
        · exact .inr ⟨x, h1, h2⟩

theorem getOptions_keys {db : PyStr} {m : Mongo} (k : Option Int) :
    k ∈ akeys (getOptions db false m) ↔ k.isSome ∧ ∃ d ∈ m.options, d.name = db ∧ d.version = k := by
  rw [getOptions, foldl_aset_keys]
  simp only [akeys, List.map_nil, List.not_mem_nil, false_or, List.mem_filter, Bool.false_or, Bool.and_eq_true,
    decide_eq_true_eq]
  constructor
  · rintro ⟨d, ⟨h1, h2, h3⟩, h4⟩; exact ⟨h4 ▸ h3, d, h1, h2, h4⟩
  · rintro ⟨h, d, h1, h2, h3⟩; exact ⟨d, ⟨h1, h2, h3 ▸ h⟩, h3⟩

theorem foldl_aset_aget {α : Type} (f : OptDoc → α) (l : List OptDoc) (acc : List (Option Int × α)) (k : Option Int) :
    aget k (l.foldl (fun acc d => aset d.version (f d) acc) acc) =
      match l.reverse.find? (fun d => decide (d.version = k)) with
      | some d => some (f d)
      | none => aget k acc := by
  induction l generalizing acc with
  | nil => rfl
  | cons d l ih =>
    rw [List.foldl_cons, ih, List.reverse_cons, List.find?_append]
    cases h : List.find? (fun d => decide (d.version = k)) l.reverse with
    | some x => rfl
    | none =>
      simp only [Option.none_or, List.find?_cons, List.find?_nil, aget_aset]
      by_cases e : d.version = k
      · simp [e]
      · have e' : k ≠ d.version := fun h => e h.symm
        simp [e, e']

/-- The committed options of a database, in order. -/
def committedOptions (db : PyStr) (os : List OptDoc) : List OptDoc :=
  os.filter (fun d => decide (d.name = db) && d.version.isSome)

theorem getOptions_eq {db : PyStr} {m : Mongo} : getOptions db false m =
    (committedOptions db m.options).foldl (fun acc d => aset d.version (ParsingOptions.fromDoc d.options) acc) [] := by
  simp [getOptions, committedOptions]

/-- The latest options: no committed ones, or those of the last document with the greatest version. -/
theorem latestOptions_spec (db : PyStr) (m : Mongo) :
    (latestOptions db m = none ∧ committedOptions db m.options = []) ∨
    ∃ d v, latestOptions db m = some (ParsingOptions.fromDoc d.options) ∧
      d ∈ committedOptions db m.options ∧ d.version = some v ∧
      (∀ d' ∈ committedOptions db m.options, ∀ v', d'.version = some v' → v' ≤ v) ∧
      (committedOptions db m.options).reverse.find? (fun d => decide (d.version = some v)) = some d := by
  have hk : ∀ k, k ∈ (getOptions db false m).filterMap (·.1) ↔ ∃ d ∈ committedOptions db m.options, d.version = some k := by
    intro k
    have h1 : k ∈ (getOptions db false m).filterMap (·.1) ↔ some k ∈ akeys (getOptions db false m) := by
      simp [akeys]
    rw [h1, getOptions_keys]
    simp only [committedOptions, List.mem_filter, Bool.and_eq_true, decide_eq_true_eq, Option.isSome_some, true_and]
    constructor
    · rintro ⟨d, h1, h2, h3⟩; exact ⟨d, ⟨h1, h2, by simp [h3]⟩, h3⟩
    · rintro ⟨d, ⟨h1, h2, _⟩, h3⟩; exact ⟨d, h1, h2, h3⟩
  cases hm : ((getOptions db false m).filterMap (·.1)).max? with
  | none =>
    left
    refine ⟨by simp only [latestOptions, hm], ?_⟩
    rw [List.max?_eq_none_iff] at hm
    cases hc : committedOptions db m.options with
    | nil => rfl
    | cons d l =>
      have hd : d ∈ committedOptions db m.options := by rw [hc]; simp
      have := hd
      simp only [committedOptions, List.mem_filter, Bool.and_eq_true] at this
      obtain ⟨v, hv⟩ := Option.isSome_iff_exists.1 this.2.2
      have := (hk v).2 ⟨d, hd, hv⟩
      rw [hm] at this; cases this
  | some v =>
    right
    have hmax := List.max?_eq_some_iff.1 hm
    obtain ⟨d0, hd0, hv0⟩ := (hk v).1 hmax.1
    have hlo : latestOptions db m = aget (some v) (getOptions db false m) := by simp only [latestOptions, hm]
    rw [getOptions_eq, foldl_aset_aget] at hlo
    cases hf : (committedOptions db m.options).reverse.find? (fun d => decide (d.version = some v)) with
    | none =>
      rw [List.find?_eq_none] at hf
      exact absurd hv0 (by simpa using hf d0 (by simpa using hd0))
    | some d =>
      rw [hf] at hlo
      have hd := List.find?_some hf
      have hd' := List.mem_of_find?_eq_some hf
      simp only [decide_eq_true_eq] at hd
      refine ⟨d, v, hlo, by simpa using hd', hd, ?_, hf⟩
      intro d' h' v' hv'
      exact hmax.2 v' ((hk v').2 ⟨d', h', hv'⟩)

/-- A document added after the others with a greater version gives the latest options. -/
theorem latestOptions_last {db : PyStr} {m : Mongo} {os : List OptDoc} {d : OptDoc} {v : Int}
    (h : committedOptions db m.options = os ++ [d]) (hv : d.version = some v)
    (hmax : ∀ d' ∈ os, ∀ v', d'.version = some v' → v' ≤ v) :
    latestOptions db m = some (ParsingOptions.fromDoc d.options) := by
  rcases latestOptions_spec db m with ⟨_, h0⟩ | ⟨x, w, h1, h2, h3, h4, h5⟩
  · rw [h] at h0; simp at h0
  · rw [h] at h2 h4 h5
    have hw : w = v := by
      have := h4 d (by simp) v hv
      rcases List.mem_append.1 h2 with h2 | h2
      · have := hmax x h2 w h3; omega
      · simp at h2; subst h2; rw [h3] at hv; cases hv; rfl
    subst hw
    rw [List.reverse_append, List.reverse_singleton, List.singleton_append, List.find?_cons] at h5
    simp only [hv, decide_true, Option.some.injEq] at h5
    rw [h1, h5]

theorem setOf_foldl_pairwise {α : Type} {eq : α → α → Bool} (hs : ∀ a b, eq a b = eq b a) : ∀ (l s : List α),
    s.Pairwise (fun a b => eq a b = false) → (l.foldl (fun s x => setAdd eq x s) s).Pairwise (fun a b => eq a b = false)
  | [], _, h => h
  | y :: l, s, h => by
    rw [List.foldl_cons]
    apply setOf_foldl_pairwise hs l
    unfold setAdd
    split
    · exact h
    · rename_i hm
      rw [List.pairwise_append]
      refine ⟨h, by simp, ?_⟩
      intro a ha b hb
      simp at hb; subst hb
      rw [hs]
      by_contra hc
      exact hm (setMem_eq.2 ⟨a, ha, by simpa using hc⟩)

theorem setOf_str_nodup (l : List PyStr) : (setOf strEq l).Nodup :=
  (setOf_foldl_pairwise strEq_comm l [] .nil).imp (fun h => by simpa [strEq] using h)

theorem setOf_hint_nodup (l : List GeoFieldHint) : ((setOf GeoFieldHint.pyEq l).map GeoFieldHint.latField).Nodup := by
  rw [List.Nodup, List.pairwise_map]
  exact (setOf_foldl_pairwise hintEq_comm l [] .nil).imp (fun h => by simpa [GeoFieldHint.pyEq] using h)

/-- Options read from a document are sets. -/
theorem fromDoc_ok (d : OptionsDoc) : OptionsOk (ParsingOptions.fromDoc d) :=
  ⟨setOf_str_nodup _, setOf_str_nodup _, setOf_str_nodup _, setOf_hint_nodup _⟩

theorem nodup_subset_eq {α : Type} {a b : List α} (ha : a.Nodup) (hl : a.length = b.length) (h : ∀ x ∈ a, x ∈ b) :
    SameSet a b := by
  have hs : a.Subperm b := List.subperm_of_subset ha h
  have hp : a.Perm b := hs.perm_of_length_le (by omega)
  exact fun x => hp.mem_iff

theorem setEq_str {a b : List PyStr} (ha : a.Nodup) (h : setEq strEq a b = true) : SameSet a b := by
  simp only [setEq, Bool.and_eq_true, decide_eq_true_eq, List.all_eq_true, setMem_eq] at h
  refine nodup_subset_eq ha h.1 ?_
  intro x hx
  obtain ⟨y, hy, e⟩ := h.2 x hx
  have : x = y := by simpa [strEq] using e
  exact this ▸ hy

/-- Hints with the same latitude field are the same. -/
def HintsAgree (a b : ParsingOptions) : Prop :=
  ∀ g ∈ a.geoHints, ∀ h ∈ b.geoHints, g.latField = h.latField → g = h

theorem pyEq_same {a b : ParsingOptions} (ha : OptionsOk a) (hh : HintsAgree a b) (h : a.pyEq b = true) :
    SameOptions a b := by
  simp only [ParsingOptions.pyEq, Bool.and_eq_true, decide_eq_true_eq] at h
  obtain ⟨⟨⟨⟨⟨h1, h2⟩, h3⟩, h4⟩, h5⟩, h6⟩ := h
  refine ⟨setEq_str ha.trueValues h1, setEq_str ha.falseValues h2, setEq_str ha.dateFormats h3, ?_, h5, h6⟩
  simp only [setEq, Bool.and_eq_true, decide_eq_true_eq, List.all_eq_true, setMem_eq] at h4
  refine nodup_subset_eq ?_ h4.1 ?_
  · exact nodup_of_map _ ha.geoHints
  · intro x hx
    obtain ⟨y, hy, e⟩ := h4.2 x hx
    have : x = y := hh x hx y hy (by simpa [GeoFieldHint.pyEq] using e)
    exact this ▸ hy

end Splitgill
