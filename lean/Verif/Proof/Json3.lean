import Verif.Proof.Json2
import Verif.Proof.History
/-!
# What `parse` makes of data can be written if the data can be
-/

namespace Splitgill

theorem allLeavesDict_iff {p : Value → Prop} : ∀ {d : Dict}, AllLeavesDict p d ↔ ∀ kv ∈ d, AllLeaves p kv.2
  | [] => by simp [AllLeavesDict]
  | (k, v) :: r => by rw [AllLeavesDict, allLeavesDict_iff, List.forall_mem_cons]

theorem allLeavesList_iff {p : Value → Prop} : ∀ {l : List Value}, AllLeavesList p l ↔ ∀ v ∈ l, AllLeaves p v
  | [] => by simp [AllLeavesList]
  | v :: r => by rw [AllLeavesList, allLeavesList_iff, List.forall_mem_cons]

mutual
theorem dumpable_iff : ∀ v : Value, dumpable v = true ↔ AllLeaves IntFits v
  | .none => by simp [dumpable, AllLeaves, IntFits]
  | .bool b => by simp [dumpable, AllLeaves, IntFits]
  | .int i => by simp [dumpable, AllLeaves, IntFits]
  | .float f => by simp [dumpable, AllLeaves, IntFits]
  | .str s => by simp [dumpable, AllLeaves, IntFits]
  | .list l => by rw [dumpable, AllLeaves]; exact dumpableList_iff l
  | .dict d => by rw [dumpable, AllLeaves]; exact dumpableDict_iff d
theorem dumpableList_iff : ∀ l : List Value, dumpableList l = true ↔ AllLeavesList IntFits l
  | [] => by simp [dumpableList, AllLeavesList]
  | v :: r => by rw [dumpableList, Bool.and_eq_true, AllLeavesList, dumpable_iff v, dumpableList_iff r]
theorem dumpableDict_iff : ∀ d : Dict, dumpableDict d = true ↔ AllLeavesDict IntFits d
  | [] => by simp [dumpableDict, AllLeavesDict]
  | (k, v) :: r => by rw [dumpableDict, Bool.and_eq_true, AllLeavesDict, dumpable_iff v, dumpableDict_iff r]
end

mutual
theorem floatsKept_iff {F : FloatText} : ∀ v : Value, FloatsKept F v ↔ AllLeaves (FloatFits F) v
  | .none => by simp [FloatsKept, AllLeaves, FloatFits]
  | .bool b => by simp [FloatsKept, AllLeaves, FloatFits]
  | .int i => by simp [FloatsKept, AllLeaves, FloatFits]
  | .float f => by simp [FloatsKept, AllLeaves, FloatFits]
  | .str s => by simp [FloatsKept, AllLeaves, FloatFits]
  | .list l => by rw [FloatsKept, AllLeaves]; exact floatsKeptList_iff l
  | .dict d => by rw [FloatsKept, AllLeaves]; exact floatsKeptDict_iff d
theorem floatsKeptList_iff {F : FloatText} : ∀ l : List Value, FloatsKeptList F l ↔ AllLeavesList (FloatFits F) l
  | [] => by simp [FloatsKeptList, AllLeavesList]
  | v :: r => by rw [FloatsKeptList, AllLeavesList, floatsKept_iff v, floatsKeptList_iff r]
theorem floatsKeptDict_iff {F : FloatText} : ∀ d : Dict, FloatsKeptDict F d ↔ AllLeavesDict (FloatFits F) d
  | [] => by simp [FloatsKeptDict, AllLeavesDict]
  | (k, v) :: r => by rw [FloatsKeptDict, AllLeavesDict, floatsKept_iff v, floatsKeptDict_iff r]
end

variable {p : Value → Prop}

theorem AllLeavesDict.aset {k : PyStr} {v : Value} (hv : AllLeaves p v) : ∀ {d : Dict}, AllLeavesDict p d →
    AllLeavesDict p (aset k v d)
  | [], _ => ⟨hv, trivial⟩
  | (k', v') :: r, h => by
    rw [Splitgill.aset]
    split
    · exact ⟨hv, h.2⟩
    · exact ⟨h.1, AllLeavesDict.aset hv h.2⟩

theorem AllLeavesDict.aupdate {a b : Dict} (ha : AllLeavesDict p a) (hb : AllLeavesDict p b) : AllLeavesDict p (aupdate a b) := by
  rw [allLeavesDict_iff] at *
  intro kv h
  rcases mem_aupdate h with h | h
  · exact hb kv h
  · exact ha kv h

theorem AllLeavesDict.aget {k : PyStr} {v : Value} {d : Dict} (h : AllLeavesDict p d) (hg : aget k d = some v) : AllLeaves p v :=
  allLeavesDict_iff.1 h (k, v) (aget_mem hg)

variable {E : ParseEnv}

theorem geoDict_leaves (h : LeavesOk E p) (g : PyStr × PyStr) : AllLeavesDict p (geoDict g) :=
  ⟨h.str _, h.str _, trivial⟩

theorem asetOpt_leaves {k : PyStr} {v : Option Value} {d : Dict} (hd : AllLeavesDict p d) (hv : ∀ x, v = some x → AllLeaves p x) :
    AllLeavesDict p (asetOpt k v d) := by
  unfold asetOpt
  split
  · exact hd.aset (hv _ rfl)
  · exact hd

theorem parseValue_leaves (h : LeavesOk E p) (o : ParsingOptions) {v : Value} (hs : v.isScalar = true) (hv : p v) :
    AllLeavesDict p (parseValue E o v) := by
  have hl : AllLeaves p v := by cases v <;> first | exact hv | cases hs
  unfold parseValue
  refine asetOpt_leaves (asetOpt_leaves (asetOpt_leaves ?_ ?_) ?_) ?_
  · split
    · exact AllLeavesDict.aupdate ⟨hl, h.str _, h.str _, trivial⟩ (geoDict_leaves h _)
    · exact ⟨hl, h.str _, h.str _, trivial⟩
  · intro x hx
    obtain ⟨b, _, rfl⟩ := Option.map_eq_some_iff.1 hx
    exact h.bool b
  · intro x hx
    unfold parsedNumber at hx
    split at hx
    · cases hx; exact hv
    · cases hx; exact hv
    · obtain ⟨f, hf, rfl⟩ := Option.map_eq_some_iff.1 hx
      exact h.number _ _ hf
  · intro x hx
    obtain ⟨i, hi, rfl⟩ := Option.map_eq_some_iff.1 hx
    obtain ⟨f, _, hf⟩ := List.exists_of_findSome?_eq_some hi
    exact h.date _ _ _ hf

theorem addHints_leaves (h : LeavesOk E p) : ∀ {hints : List (PyStr × (PyStr × PyStr))} {d d' : Dict}, AllLeavesDict p d →
    addHints hints d = .ok d' → AllLeavesDict p d'
  | [], d, d', hd, e => by cases e; exact hd
  | (k, g) :: r, d, d', hd, e => by
    rw [addHints] at e
    split at e
    · cases e
    · rename_i x hx
      have := hd.aget hx
      rw [AllLeaves] at this
      exact addHints_leaves h (hd.aset (v := .dict _) (by rw [AllLeaves]; exact this.aupdate (geoDict_leaves h g))) e
    · cases e

theorem assembleDict_leaves (h : LeavesOk E p) {o : ParsingOptions} {b : Bool} {data : Dict} {items x : PResult Dict}
    (hi : AllLeavesDict p items.parsed) (e : assembleDict E o b data items = .ok x) : AllLeavesDict p x.parsed := by
  unfold assembleDict at e
  dsimp only at e
  split at e
  · cases e
  · rename_i d hd
    cases e
    refine addHints_leaves h (AllLeavesDict.aupdate ?_ hi) hd
    cases (if b = true then matchGeojson E data else none) with
    | none => trivial
    | some g => exact geoDict_leaves h g

mutual
theorem parseInner_leaves (h : LeavesOk E p) (o : ParsingOptions) (inList : Bool) : ∀ (v : Value) (x : PResult (Option Value)),
    AllLeaves p v → parseInner E o inList v = .ok x → ∀ y, x.parsed = some y → AllLeaves p y
  | .dict [], x, _, e, y, hy => by
    cases e
    cases inList
    · cases hy
    · cases hy; exact h.none
  | .dict (kv :: r), x, hv, e, y, hy => by
    rw [parseInner] at e
    cases h1 : parseItems E o (kv :: r) with
    | error _ => rw [h1] at e; cases e
    | ok items =>
      rw [h1] at e
      dsimp only at e
      cases h2 : assembleDict E o true (kv :: r) items with
      | error _ => rw [h2] at e; cases e
      | ok z =>
        rw [h2] at e
        cases e
        cases hy
        rw [AllLeaves]
        rw [AllLeaves] at hv
        exact assembleDict_leaves h (parseItems_leaves h o (kv :: r) items hv h1) h2
  | .list [], x, _, e, y, hy => by
    cases e
    cases inList
    · cases hy
    · cases hy; exact h.none
  | .list (v :: r), x, hv, e, y, hy => by
    rw [parseInner] at e
    cases h1 : parseElems E o (v :: r) with
    | error _ => rw [h1] at e; cases e
    | ok z =>
      rw [h1] at e
      cases e
      cases hy
      rw [AllLeaves]
      rw [AllLeaves] at hv
      exact parseElems_leaves h o (v :: r) z hv h1
  | .none, x, _, e, y, hy => by
    cases e
    cases inList
    · cases hy; exact ⟨h.none, trivial⟩
    · cases hy; exact h.none
  | .str s, x, hv, e, y, hy => by
    rw [parseInner] at e
    split at e
    · cases e
      cases inList
      · cases hy; exact ⟨h.str _, trivial⟩
      · cases hy; exact h.none
    · cases e
      cases hy
      exact parseValue_leaves h o rfl hv
  | .bool b, x, hv, e, y, hy => by
    cases e; cases hy
    exact parseValue_leaves h o rfl hv
  | .int b, x, hv, e, y, hy => by
    cases e; cases hy
    exact parseValue_leaves h o rfl hv
  | .float b, x, hv, e, y, hy => by
    cases e; cases hy
    exact parseValue_leaves h o rfl hv
theorem parseItems_leaves (h : LeavesOk E p) (o : ParsingOptions) : ∀ (d : Dict) (x : PResult Dict),
    AllLeavesDict p d → parseItems E o d = .ok x → AllLeavesDict p x.parsed
  | [], x, _, e => by cases e; trivial
  | (k, v) :: r, x, hd, e => by
    rw [AllLeavesDict] at hd
    rw [parseItems] at e
    cases h1 : parseInner E o false v with
    | error _ => rw [h1] at e; cases e
    | ok z =>
      rw [h1] at e
      dsimp only at e
      cases h2 : parseItems E o r with
      | error _ => rw [h2] at e; cases e
      | ok w =>
        rw [h2] at e
        cases e
        have hr := parseItems_leaves h o r w hd.2 h2
        dsimp only
        cases hz : z.parsed with
        | none => exact hr
        | some y => exact ⟨parseInner_leaves h o false v z hd.1 h1 y hz, hr⟩
theorem parseElems_leaves (h : LeavesOk E p) (o : ParsingOptions) : ∀ (l : List Value) (x : PResult (List Value)),
    AllLeavesList p l → parseElems E o l = .ok x → AllLeavesList p x.parsed
  | [], x, _, e => by cases e; trivial
  | v :: r, x, hd, e => by
    rw [AllLeavesList] at hd
    rw [parseElems] at e
    cases h1 : parseInner E o true v with
    | error _ => rw [h1] at e; cases e
    | ok z =>
      rw [h1] at e
      dsimp only at e
      cases h2 : parseElems E o r with
      | error _ => rw [h2] at e; cases e
      | ok w =>
        rw [h2] at e
        cases e
        refine ⟨?_, parseElems_leaves h o r w hd.2 h2⟩
        cases hz : z.parsed with
        | none => exact h.none
        | some y => exact parseInner_leaves h o true v z hd.1 h1 y hz
end

theorem parse_leaves (h : LeavesOk E p) {o : ParsingOptions} {d : Dict} {x : ParsedData} (hd : AllLeavesDict p d)
    (e : parse E o d = .ok x) : AllLeavesDict p x.parsed := by
  unfold parse parseDict at e
  cases h1 : parseItems E o d with
  | error _ => rw [h1] at e; cases e
  | ok items =>
    rw [h1] at e
    dsimp only at e
    cases h2 : assembleDict E o false d items with
    | error _ => rw [h2] at e; cases e
    | ok z =>
      rw [h2] at e
      dsimp only at e
      split at e
      · cases e
        exact assembleDict_leaves h (parseItems_leaves h o d items hd h1) h2
      · cases e
      · cases e

mutual
theorem canon_leaves : ∀ v : Value, AllLeaves p v → AllLeaves p (canon v)
  | .dict d, h => by rw [canon, AllLeaves]; rw [AllLeaves] at h; exact canonDict_leaves d h
  | .list l, h => by rw [canon, AllLeaves]; rw [AllLeaves] at h; exact canonList_leaves l h
  | .none, h => h
  | .bool _, h => h
  | .int _, h => h
  | .float _, h => h
  | .str _, h => h
theorem canonDict_leaves : ∀ d : Dict, AllLeavesDict p d → AllLeavesDict p (canonDict d)
  | [], h => h
  | (k, v) :: r, h => by
    rw [canonDict]
    have hr := canonDict_leaves r h.2
    rw [allLeavesDict_iff] at *
    intro kv hkv
    have := (insertBy_perm (le := fun a b : PyStr × Value => strLe a.1 b.1) (k, canon v) (canonDict r)).mem_iff.1 hkv
    rcases List.mem_cons.1 this with rfl | hm
    · exact canon_leaves v (h _ List.mem_cons_self)
    · exact hr kv hm
theorem canonList_leaves : ∀ l : List Value, AllLeavesList p l → AllLeavesList p (canonList l)
  | [], h => h
  | v :: r, h => ⟨canon_leaves v h.1, canonList_leaves r h.2⟩
end

theorem strs_leaves (h : ∀ s, p (.str s)) : ∀ l : List PyStr, AllLeavesList p (l.map Value.str)
  | [] => trivial
  | s :: l => ⟨h s, strs_leaves h l⟩

theorem toDict_leaves {d : Doc ParsedData} (hs : ∀ s, p (.str s)) (hv : p (.int d.version)) (hg : p (.int d.gte))
    (hl : ∀ v, d.lt = some v → p (.int v)) (hn : ∀ v, d.next = some v → p (.int v)) (hd : AllLeavesDict p d.parsed.parsed) :
    AllLeavesDict p d.toDict := by
  rw [allLeavesDict_iff]
  intro kv h
  unfold Doc.toDict at h
  rcases List.mem_append.1 h with h | h
  · simp only [List.mem_cons, List.not_mem_nil, or_false] at h
    rcases h with rfl | rfl | rfl | rfl | rfl | rfl
    · exact hs _
    · exact hv
    · show AllLeaves p (.dict _)
      rw [AllLeaves]
      refine ⟨hg, ?_⟩
      cases hlt : d.lt with
      | none => trivial
      | some v => exact ⟨hl v hlt, trivial⟩
    · show AllLeaves p (.dict _)
      rw [AllLeaves]
      exact hd
    · show AllLeaves p (.list _)
      rw [AllLeaves]
      exact strs_leaves hs _
    · show AllLeaves p (.list _)
      rw [AllLeaves]
      exact strs_leaves hs _
  · cases hnx : d.next with
    | none => rw [hnx] at h; cases h
    | some v =>
      rw [hnx] at h
      rw [List.mem_singleton] at h
      subst h
      exact hn v hnx

mutual
theorem allLeaves_and {q : Value → Prop} : ∀ v, AllLeaves (fun v => p v ∧ q v) v ↔ AllLeaves p v ∧ AllLeaves q v
  | .list l => by rw [AllLeaves, AllLeaves, AllLeaves]; exact allLeavesList_and l
  | .dict d => by rw [AllLeaves, AllLeaves, AllLeaves]; exact allLeavesDict_and d
  | .none => Iff.rfl
  | .bool _ => Iff.rfl
  | .int _ => Iff.rfl
  | .float _ => Iff.rfl
  | .str _ => Iff.rfl
theorem allLeavesList_and {q : Value → Prop} : ∀ l, AllLeavesList (fun v => p v ∧ q v) l ↔ AllLeavesList p l ∧ AllLeavesList q l
  | [] => by simp [AllLeavesList]
  | v :: r => by rw [AllLeavesList, AllLeavesList, AllLeavesList, allLeaves_and v, allLeavesList_and r]; tauto
theorem allLeavesDict_and {q : Value → Prop} : ∀ d, AllLeavesDict (fun v => p v ∧ q v) d ↔ AllLeavesDict p d ∧ AllLeavesDict q d
  | [] => by simp [AllLeavesDict]
  | (k, v) :: r => by rw [AllLeavesDict, AllLeavesDict, AllLeavesDict, allLeaves_and v, allLeavesDict_and r]; tauto
end

theorem canWrite {F : FloatText} {op : BulkOp ParsedData} (h : op.Writable F) : op.CanWrite F := by
  cases op with
  | index ix id doc =>
    have h := (allLeavesDict_and doc.toDict).1 h
    exact ⟨(dumpable_iff (.dict doc.toDict)).2 h.1, (floatsKept_iff (.dict doc.toDict)).2 h.2⟩
  | delete ix id => trivial

theorem bulkBody_ok {F : FloatText} {db : PyStr} : ∀ ops : List (BulkOp ParsedData), (∃ body, bulkBody F db ops = .ok body) ↔
    ∀ ix id doc, .index ix id doc ∈ ops → AllLeavesDict IntFits doc.toDict
  | [] => ⟨fun _ _ _ _ h => (nomatch h), fun _ => ⟨[], rfl⟩⟩
  | op :: ops => by
    have ih := bulkBody_ok (F := F) (db := db) ops
    rw [bulkBody]
    cases op with
    | delete ix id =>
      rw [BulkOp.serialise]
      dsimp only
      constructor
      · rintro ⟨body, h⟩ ix' id' doc hm
        rcases List.mem_cons.1 hm with e | hm
        · cases e
        · refine ih.1 ?_ ix' id' doc hm
          cases hb : bulkBody F db ops with
          | error e => rw [hb] at h; cases h
          | ok b => exact ⟨b, rfl⟩
      · intro h
        obtain ⟨b, hb⟩ := ih.2 (fun ix id doc hm => h ix id doc (List.mem_cons_of_mem _ hm))
        rw [hb]
        exact ⟨_, rfl⟩
    | index ix id doc =>
      rw [BulkOp.serialise]
      by_cases hd : dumpable (.dict doc.toDict) = true
      · rw [if_pos hd]
        dsimp only
        constructor
        · rintro ⟨body, h⟩ ix' id' doc' hm
          rcases List.mem_cons.1 hm with e | hm
          · cases e
            exact (dumpable_iff (.dict doc.toDict)).1 hd
          · refine ih.1 ?_ ix' id' doc' hm
            cases hb : bulkBody F db ops with
            | error e => rw [hb] at h; cases h
            | ok b => exact ⟨b, rfl⟩
        · intro h
          obtain ⟨b, hb⟩ := ih.2 (fun ix id doc hm => h ix id doc (List.mem_cons_of_mem _ hm))
          rw [hb]
          exact ⟨_, rfl⟩
      · rw [if_neg hd]
        constructor
        · rintro ⟨body, h⟩; cases h
        · intro h
          exact absurd ((dumpable_iff (.dict doc.toDict)).2 (h ix id doc List.mem_cons_self)) hd

end Splitgill
