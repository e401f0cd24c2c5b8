import Verif.Spec.Prepare
import Verif.Proof.Value
/-!
# Lemmas about the cleaning of data
-/

namespace Splitgill

/-! ## strip -/

theorem dropWhile_head {p : Char → Bool} : ∀ {s : PyStr} {c}, (s.dropWhile p).head? = some c → p c = false
  | [], _, h => by simp at h
  | x :: s, c, h => by
    rw [List.dropWhile_cons] at h
    split at h
    · exact dropWhile_head h
    · rename_i hx; simp at h; subst h; simpa using hx

theorem dropWhile_id {p : Char → Bool} {s : PyStr} (h : ∀ c, s.head? = some c → p c = false) :
    s.dropWhile p = s := by
  cases s with
  | nil => rfl
  | cons x s => rw [List.dropWhile_cons, h x rfl]; simp

theorem strip_subset {U : Unicode} {s : PyStr} {c} (h : c ∈ strip U s) : c ∈ s := by
  unfold strip at h
  rw [List.mem_reverse] at h
  have := (List.dropWhile_suffix _).subset h
  rw [List.mem_reverse] at this
  exact (List.dropWhile_suffix _).subset this

theorem strip_last {U : Unicode} {s : PyStr} {c} (h : (strip U s).getLast? = some c) :
    U.isSpace c = false := by
  unfold strip at h
  rw [List.getLast?_reverse] at h
  exact dropWhile_head h

theorem strip_head {U : Unicode} {s : PyStr} {c} (h : (strip U s).head? = some c) :
    U.isSpace c = false := by
  unfold strip at h
  rw [List.head?_reverse] at h
  -- the last of a suffix of the reversed list is the head of the list
  have hs := List.dropWhile_suffix U.isSpace (l := (s.dropWhile U.isSpace).reverse)
  obtain ⟨pre, hpre⟩ := hs
  have : (s.dropWhile U.isSpace).reverse.getLast? = some c := by
    rw [← hpre, List.getLast?_append, h]; rfl
  rw [List.getLast?_reverse] at this
  exact dropWhile_head this

theorem strip_id {U : Unicode} {s : PyStr} (h1 : ∀ c, s.head? = some c → U.isSpace c = false)
    (h2 : ∀ c, s.getLast? = some c → U.isSpace c = false) : strip U s = s := by
  unfold strip
  rw [dropWhile_id h1, dropWhile_id, List.reverse_reverse]
  intro c hc; rw [List.head?_reverse] at hc; exact h2 c hc

/-! ## field names -/

theorem prepareFieldName_clean {U : Unicode} (hU : U.Sane) (k : RawKey) :
    CleanName U (prepareFieldName U k) := by
  unfold prepareFieldName
  have hmem : ∀ c ∈ strip U ((k.text.filter (fun c => !U.isC c)).map
      (fun c => if c = '.' then '_' else c)), c ≠ '.' ∧ U.isC c = false := by
    intro c hc
    have := strip_subset hc
    rw [List.mem_map] at this
    obtain ⟨x, hx, rfl⟩ := this
    rw [List.mem_filter] at hx
    split
    · exact ⟨by decide, hU.c_under⟩
    · rename_i h; exact ⟨h, by simpa using hx.2⟩
  have hh := fun c => @strip_head U ((k.text.filter (fun c => !U.isC c)).map
      (fun c => if c = '.' then '_' else c)) c
  have hl := fun c => @strip_last U ((k.text.filter (fun c => !U.isC c)).map
      (fun c => if c = '.' then '_' else c)) c
  generalize strip U ((k.text.filter (fun c => !U.isC c)).map
      (fun c => if c = '.' then '_' else c)) = n at hmem hh hl
  cases n with
  | nil =>
    constructor
    · simp
    · simp
    · intro c hc; simp at hc; subst hc; exact hU.c_hyphen
    · intro c hc; simp at hc; subst hc; exact hU.s_hyphen
    · intro c hc; simp at hc; subst hc; exact hU.s_hyphen
    · intro h; simp at h
  | cons c rest =>
    dsimp only
    split
    · constructor
      · simp [dataIdField]
      · decide
      · intro c hc; simp [dataIdField] at hc
        rcases hc with h | h | h <;> subst h
        · exact hU.c_under
        · exact hU.c_i
        · exact hU.c_d
      · intro c hc; simp [dataIdField] at hc; subst hc; exact hU.s_under
      · intro c hc; simp [dataIdField] at hc; subst hc; exact hU.s_d
      · intro _; rfl
    · split
      · rename_i hc
        subst hc
        constructor
        · simp
        · intro h; rw [List.mem_cons] at h
          rcases h with h | h
          · exact absurd h (by decide)
          · exact (hmem '.' (List.mem_cons_of_mem _ h)).1 rfl
        · intro c h; rw [List.mem_cons] at h
          rcases h with h | h
          · subst h; exact hU.c_hyphen
          · exact (hmem c (List.mem_cons_of_mem _ h)).2
        · intro c h; simp at h; subst h; exact hU.s_hyphen
        · intro c h
          cases rest with
          | nil => simp at h; subst h; exact hU.s_hyphen
          | cons y ys => rw [List.getLast?_cons_cons] at h; exact hl c (by rw [List.getLast?_cons_cons]; exact h)
        · intro h; simp at h
      · rename_i hc
        constructor
        · simp
        · intro h; exact (hmem '.' h).1 rfl
        · intro c h; exact (hmem c h).2
        · exact hh
        · exact hl
        · intro h; simp at h; exact absurd h hc

theorem prepareFieldName_id {U : Unicode} {n : PyStr} (h : CleanName U n) :
    prepareFieldName U (.str n) = n := by
  unfold prepareFieldName
  have e : (RawKey.str n).text = n := rfl
  have h1 : n.filter (fun c => !U.isC c) = n := by
    rw [List.filter_eq_self]; intro c hc; simp [h.no_control c hc]
  have h2 : n.map (fun c => if c = '.' then '_' else c) = n := by
    conv => rhs; rw [← List.map_id n]
    apply List.map_congr_left
    intro c hc
    have : c ≠ '.' := fun e => h.no_dot (e ▸ hc)
    simp [this]
  rw [e, h1, h2, strip_id h.no_space_left h.no_space_right]
  cases n with
  | nil => exact absurd rfl h.nonempty
  | cons c rest =>
    dsimp only
    split
    · rename_i he; cases he; rfl
    · split
      · rename_i hne hc
        subst hc
        have := h.no_underscore rfl
        rw [this] at hne; exact absurd rfl hne
      · rfl

/-! ## data -/

theorem cleanText_filter (U : Unicode) (s : PyStr) :
    CleanText U (s.filter (fun c => !invalidValueChar U c)) := by
  intro c hc hC
  rw [List.mem_filter] at hc
  have := hc.2
  simp only [invalidValueChar, hC, Bool.true_and, Bool.not_and, Bool.not_not, Bool.or_eq_true,
    bne, beq_iff_eq] at this
  rcases this with (h | h) | h <;> simp_all

theorem filter_cleanText {U : Unicode} {s : PyStr} (h : CleanText U s) :
    s.filter (fun c => !invalidValueChar U c) = s := by
  rw [List.filter_eq_self]
  intro c hc
  cases hC : U.isC c with
  | false => simp [invalidValueChar, hC]
  | true => rcases h c hc hC with e | e | e <;> subst e <;> simp [invalidValueChar]

theorem prepareItems_eq (U : Unicode) : ∀ d, prepareItems U d =
    d.map (fun kv => (prepareFieldName U kv.1, prepareData U kv.2))
  | [] => rfl
  | (k, v) :: r => by simp [prepareItems, prepareItems_eq U r]

theorem prepareList_eq (U : Unicode) : ∀ l, prepareList U l = l.map (prepareData U)
  | [] => rfl
  | v :: r => by simp [prepareList, prepareList_eq U r]

/-- Structural induction on user values. -/
theorem Raw.ind {P : Raw → Prop}
    (hnone : P .none) (hbool : ∀ b, P (.bool b)) (hint : ∀ i, P (.int i))
    (hfloat : ∀ f, P (.float f)) (hstr : ∀ s, P (.str s)) (hdt : ∀ s, P (.datetime s))
    (hd : ∀ s, P (.date s)) (ho : ∀ s, P (.other s))
    (hlist : ∀ l, (∀ v ∈ l, P v) → P (.list l))
    (hdict : ∀ d, (∀ k v, (k, v) ∈ d → P v) → P (.dict d)) (v : Raw) : P v :=
  Raw.rec (motive_1 := P) (motive_2 := fun l => ∀ v ∈ l, P v)
    (motive_3 := fun d => ∀ k v, (k, v) ∈ d → P v) (motive_4 := fun kv => P kv.2)
    hnone hbool hint hfloat hstr hlist hdict hdt hd ho
    (by simp) (fun _ _ h1 h2 v hv => by
      rcases List.mem_cons.mp hv with h | h
      · exact h ▸ h1
      · exact h2 v h)
    (by simp) (fun kv _ h1 h2 k v hv => by
      rcases List.mem_cons.mp hv with h | h
      · rw [← h] at h1; exact h1
      · exact h2 k v h)
    (fun _ _ h => h) v

theorem textsOkList_iff {U : Unicode} : ∀ {l}, Raw.TextsOkList U l ↔ ∀ v ∈ l, Raw.TextsOk U v
  | [] => by simp [Raw.TextsOkList]
  | v :: r => by simp [Raw.TextsOkList, textsOkList_iff (l := r)]

theorem textsOkDict_iff {U : Unicode} : ∀ {d}, Raw.TextsOkDict U d ↔ ∀ k v, (k, v) ∈ d → Raw.TextsOk U v
  | [] => by simp [Raw.TextsOkDict]
  | (k, v) :: r => by
    simp only [Raw.TextsOkDict, textsOkDict_iff (d := r), List.mem_cons, Prod.mk.injEq]
    constructor
    · rintro ⟨h1, h2⟩ k' v' (⟨_, rfl⟩ | h)
      · exact h1
      · exact h2 k' v' h
    · intro h; exact ⟨h k v (.inl ⟨rfl, rfl⟩), fun k' v' h' => h k' v' (.inr h')⟩

theorem mem_aofList {κ α : Type} [DecidableEq κ] {l : List (κ × α)} {kv} (h : kv ∈ aofList l) : kv ∈ l := by
  rcases mem_aupdate h with h | h
  · exact h
  · cases h

theorem mem_akeys_aofList {κ α : Type} [DecidableEq κ] {l : List (κ × α)} {k} :
    k ∈ akeys (aofList l) ↔ k ∈ akeys l := by
  unfold aofList; rw [mem_akeys_aupdate]; simp [akeys]

theorem prepareData_wf (U : Unicode) (v : Raw) : (prepareData U v).wf = true := by
  induction v using Raw.ind with
  | hlist l ih =>
    rw [prepareData, wf_list_iff, prepareList_eq]
    intro v hv; rw [List.mem_map] at hv
    obtain ⟨x, hx, rfl⟩ := hv
    exact ih x hx
  | hdict d ih =>
    rw [prepareData, wf_dict_iff]
    refine ⟨nodup_aofList _, ?_⟩
    intro k v hv
    have := mem_aofList hv
    rw [prepareItems_eq, List.mem_map] at this
    obtain ⟨⟨k', v'⟩, hx, e⟩ := this
    cases e
    exact ih k' v' hx
  | _ => simp [prepareData, Value.wf]

theorem getAt_list {p : Path} {l : List Value} {w : Value} (h : getAt p (.list l) = some w) :
    p = [] ∧ w = .list l ∨ ∃ q v, v ∈ l ∧ getAt q v = some w := by
  cases p with
  | nil => simp [getAt] at h; exact .inl ⟨rfl, h.symm⟩
  | cons a p =>
    cases a with
    | key k => simp [getAt] at h
    | idx i =>
      simp only [getAt, Option.bind_eq_some_iff] at h
      obtain ⟨v, h1, h2⟩ := h
      exact .inr ⟨p, v, List.mem_of_getElem? h1, h2⟩

theorem getAt_dict {p : Path} {d : Dict} {w : Value} (h : getAt p (.dict d) = some w) :
    p = [] ∧ w = .dict d ∨ ∃ q k v, (k, v) ∈ d ∧ getAt q v = some w := by
  cases p with
  | nil => simp [getAt] at h; exact .inl ⟨rfl, h.symm⟩
  | cons a p =>
    cases a with
    | idx k => simp [getAt] at h
    | key k =>
      simp only [getAt, Option.bind_eq_some_iff] at h
      obtain ⟨v, h1, h2⟩ := h
      exact .inr ⟨p, k, v, aget_mem h1, h2⟩

theorem getAt_scalar {p : Path} {v w : Value} (hv : v.isScalar = true) (h : getAt p v = some w) :
    w = v := by
  cases p with
  | nil => simp [getAt] at h; exact h.symm
  | cons a p => cases a <;> cases v <;> simp_all [getAt, Value.isScalar]

theorem prepareData_names {U : Unicode} (hU : U.Sane) (v : Raw) : NamesClean U (prepareData U v) := by
  have scal : ∀ v : Value, v.isScalar = true → NamesClean U v := by
    intro v hv p d h; have := getAt_scalar hv h; subst this; simp [Value.isScalar] at hv
  induction v using Raw.ind with
  | hlist l ih =>
    rw [prepareData, prepareList_eq]
    intro p d h
    rcases getAt_list h with ⟨_, e⟩ | ⟨q, w, hw, h'⟩
    · cases e
    · rw [List.mem_map] at hw
      obtain ⟨x, hx, rfl⟩ := hw
      exact ih x hx q d h'
  | hdict d ih =>
    rw [prepareData]
    intro p d' h
    rcases getAt_dict h with ⟨_, e⟩ | ⟨q, k, w, hw, h'⟩
    · cases e
      intro k hk
      rw [mem_akeys_aofList, prepareItems_eq] at hk
      simp only [akeys, List.map_map, List.mem_map] at hk
      obtain ⟨x, _, rfl⟩ := hk
      exact prepareFieldName_clean hU _
    · have := mem_aofList hw
      rw [prepareItems_eq, List.mem_map] at this
      obtain ⟨⟨k', v'⟩, hx, e⟩ := this
      cases e
      exact ih k' v' hx q d' h'
  | _ => exact scal _ (by simp [prepareData, Value.isScalar])

theorem prepareData_texts {U : Unicode} (v : Raw) (hv : v.TextsOk U) : TextsClean U (prepareData U v) := by
  induction v using Raw.ind with
  | hlist l ih =>
    rw [prepareData, prepareList_eq]
    rw [Raw.TextsOk, textsOkList_iff] at hv
    intro p d h
    rcases getAt_list h with ⟨_, e⟩ | ⟨q, w, hw, h'⟩
    · cases e
    · rw [List.mem_map] at hw
      obtain ⟨x, hx, rfl⟩ := hw
      exact ih x hx (hv x hx) q d h'
  | hdict d ih =>
    rw [prepareData]
    rw [Raw.TextsOk, textsOkDict_iff] at hv
    intro p d' h
    rcases getAt_dict h with ⟨_, e⟩ | ⟨q, k, w, hw, h'⟩
    · cases e
    · have := mem_aofList hw
      rw [prepareItems_eq, List.mem_map] at this
      obtain ⟨⟨k', v'⟩, hx, e⟩ := this
      cases e
      exact ih k' v' hx (hv _ _ hx) q d' h'
  | hstr s =>
    intro p t h; have := getAt_scalar (by simp [prepareData, Value.isScalar]) h
    simp only [prepareData] at this; cases this; exact cleanText_filter U s
  | hdt s =>
    intro p t h; have := getAt_scalar (by simp [prepareData, Value.isScalar]) h
    simp only [prepareData] at this; cases this; exact hv
  | hd s =>
    intro p t h; have := getAt_scalar (by simp [prepareData, Value.isScalar]) h
    simp only [prepareData] at this; cases this; exact hv
  | ho s =>
    intro p t h; have := getAt_scalar (by simp [prepareData, Value.isScalar]) h
    simp only [prepareData] at this; cases this; exact hv
  | _ => intro p t h; have := getAt_scalar (by simp [prepareData, Value.isScalar]) h
         simp only [prepareData] at this; cases this

theorem toRawList_eq : ∀ l, toRawList l = l.map Value.toRaw
  | [] => rfl
  | v :: r => by simp [toRawList, toRawList_eq r]

theorem toRawDict_eq : ∀ d, toRawDict d = d.map (fun kv => (RawKey.str kv.1, kv.2.toRaw))
  | [] => rfl
  | (k, v) :: r => by simp [toRawDict, toRawDict_eq r]

theorem aupdate_append_nodup {κ α : Type} [DecidableEq κ] : ∀ {e d : List (κ × α)},
    (akeys (d ++ e)).Nodup → aupdate d e = d ++ e
  | [], d, _ => by simp [aupdate]
  | (k, v) :: e, d, h => by
    have hk : k ∉ akeys d := by
      intro hk
      simp only [akeys, List.map_append, List.map_cons] at h
      rw [List.nodup_append] at h
      exact h.2.2 k hk k (by simp) rfl
    have : aupdate d ((k, v) :: e) = aupdate (aset k v d) e := rfl
    rw [this, aset_of_not_mem k v hk, aupdate_append_nodup (by simpa using h)]
    simp

theorem aofList_nodup {κ α : Type} [DecidableEq κ] {l : List (κ × α)} (h : (akeys l).Nodup) : aofList l = l := by
  unfold aofList
  rw [aupdate_append_nodup (by simpa using h)]; rfl

/-- Clean data is not changed. -/
theorem prepareData_toRaw {U : Unicode} (v : Value) (hw : v.wf = true)
    (hn : NamesClean U v) (ht : TextsClean U v) : prepareData U v.toRaw = v := by
  induction v using Value.ind with
  | hlist l ih =>
    rw [Value.toRaw, prepareData, prepareList_eq, toRawList_eq, List.map_map]
    rw [wf_list_iff] at hw
    congr 1
    conv => rhs; rw [← List.map_id l]
    apply List.map_congr_left
    intro v hv
    obtain ⟨i, hi⟩ := List.mem_iff_getElem?.mp hv
    refine ih v hv (hw v hv) ?_ ?_
    · intro p d h; exact hn (.idx i :: p) d (by simp [getAt, hi, h])
    · intro p d h; exact ht (.idx i :: p) d (by simp [getAt, hi, h])
  | hdict d ih =>
    rw [Value.toRaw, prepareData, prepareItems_eq, toRawDict_eq, List.map_map]
    rw [wf_dict_iff] at hw
    have e : d.map ((fun kv => (prepareFieldName U kv.1, prepareData U kv.2)) ∘
        (fun kv => (RawKey.str kv.1, kv.2.toRaw))) = d := by
      conv => rhs; rw [← List.map_id d]
      apply List.map_congr_left
      rintro ⟨k, v⟩ hv
      have hk : aget k d = some v := aget_of_mem hw.1 hv
      simp only [Function.comp, id]
      rw [prepareFieldName_id (hn [] d rfl k (mem_akeys_of_mem hv)), ih k v hv (hw.2 k v hv)]
      · intro p d' h; exact hn (.key k :: p) d' (by simp [getAt, hk, h])
      · intro p d' h; exact ht (.key k :: p) d' (by simp [getAt, hk, h])
    rw [e, aofList_nodup hw.1]
  | hstr s =>
    rw [Value.toRaw, prepareData, filter_cleanText (ht [] s rfl)]
  | _ => rfl

theorem length_aset {κ α : Type} [DecidableEq κ] (k : κ) (v : α) : ∀ d : List (κ × α),
    (aset k v d).length = if k ∈ akeys d then d.length else d.length + 1
  | [] => by simp [aset, akeys]
  | (k', v') :: r => by
    by_cases h : k = k'
    · subst h; simp [aset, akeys]
    · simp only [aset, h, if_false, List.length_cons, length_aset k v r, akeys, List.map_cons,
        List.mem_cons, false_or]
      by_cases hr : k ∈ List.map Prod.fst r <;> simp [hr]

theorem length_aupdate_le {κ α : Type} [DecidableEq κ] : ∀ {e d : List (κ × α)},
    (aupdate d e).length ≤ d.length + e.length
  | [], d => by simp [aupdate]
  | (k, v) :: e, d => by
    have : aupdate d ((k, v) :: e) = aupdate (aset k v d) e := rfl
    rw [this]
    have := length_aupdate_le (e := e) (d := aset k v d)
    rw [length_aset] at this
    simp only [List.length_cons]
    split at this <;> omega

theorem length_aupdate_iff {κ α : Type} [DecidableEq κ] : ∀ {e d : List (κ × α)}, (akeys d).Nodup →
    ((aupdate d e).length = d.length + e.length ↔ (akeys (d ++ e)).Nodup)
  | [], d, hd => by simp [aupdate, hd]
  | (k, v) :: e, d, hd => by
    have : aupdate d ((k, v) :: e) = aupdate (aset k v d) e := rfl
    rw [this]
    by_cases hk : k ∈ akeys d
    · have h1 := length_aupdate_le (e := e) (d := aset k v d)
      rw [length_aset, if_pos hk] at h1
      simp only [List.length_cons]
      constructor
      · intro h; omega
      · intro h
        simp only [akeys, List.map_append, List.map_cons] at h
        rw [List.nodup_append] at h
        exact absurd rfl (h.2.2 k hk k (by simp))
    · have h1 := length_aupdate_iff (e := e) (nodup_aset (k := k) (v := v) hd)
      rw [length_aset, if_neg hk, aset_of_not_mem k v hk] at h1
      rw [aset_of_not_mem k v hk, List.append_assoc, List.singleton_append] at *
      simp only [List.length_cons]
      rw [← h1]
      omega

theorem length_aofList_iff {κ α : Type} [DecidableEq κ] (l : List (κ × α)) :
    (aofList l).length = l.length ↔ (akeys l).Nodup := by
  have := length_aupdate_iff (e := l) (d := []) (by simp [akeys])
  simpa [aofList] using this

end Splitgill
