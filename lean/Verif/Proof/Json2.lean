import Verif.Proof.Json
/-!
# Lemmas about the bodies of bulk requests
-/

namespace Splitgill

/-- `BulkOp.Writable`, see `canWrite`. -/
def BulkOp.CanWrite (F : FloatText) : BulkOp ParsedData → Prop
  | .index _ _ doc => dumpable (.dict doc.toDict) = true ∧ FloatsKept F (.dict doc.toDict)
  | .delete _ _ => True

theorem numChars_newline {s : PyStr} (h : ∀ c ∈ s, isNumChar c = true) : '\n' ∉ s := fun e => absurd (h _ e) (by decide)

mutual
theorem dumps_newline (F : FloatText) : ∀ v : Value, FloatsKept F v → '\n' ∉ dumps F v
  | .none, _ => by simp [dumps]
  | .bool b, _ => by cases b <;> simp [dumps]
  | .int i, _ => by rw [dumps]; exact numChars_newline (intStr_chars i).1
  | .float .nan, _ => by simp [dumps]
  | .float .pinf, _ => by simp [dumps]
  | .float .ninf, _ => by simp [dumps]
  | .float .negZero, h => by
    have hk : F.Keeps .negZero := by simpa [FloatsKept] using h
    exact numChars_newline hk.chars
  | .float (.fin q), h => by
    have hk : F.Keeps (.fin q) := by simpa [FloatsKept] using h
    exact numChars_newline hk.chars
  | .str s, _ => jsonStr_newline s
  | .list [], _ => by simp [dumps]
  | .list (v :: r), h => by
    rw [FloatsKept, FloatsKeptList] at h
    rw [dumps]
    simp only [List.mem_cons, List.mem_append, not_or]
    exact ⟨by decide, dumps_newline F v h.1, more_newline F r h.2⟩
  | .dict [], _ => by simp [dumps]
  | .dict ((k, v) :: r), h => by
    rw [FloatsKept, FloatsKeptDict] at h
    rw [dumps]
    simp only [List.mem_cons, List.mem_append, not_or]
    exact ⟨by decide, jsonStr_newline k, by decide, dumps_newline F v h.1, items_newline F r h.2⟩
theorem more_newline (F : FloatText) : ∀ l : List Value, FloatsKeptList F l → '\n' ∉ dumpsMore F l
  | [], _ => by simp [dumpsMore]
  | v :: r, h => by
    rw [FloatsKeptList] at h
    rw [dumpsMore]
    simp only [List.mem_cons, List.mem_append, not_or]
    exact ⟨by decide, dumps_newline F v h.1, more_newline F r h.2⟩
theorem items_newline (F : FloatText) : ∀ d : Dict, FloatsKeptDict F d → '\n' ∉ dumpsItems F d
  | [], _ => by simp [dumpsItems]
  | (k, v) :: r, h => by
    rw [FloatsKeptDict] at h
    rw [dumpsItems]
    simp only [List.mem_cons, List.mem_append, not_or]
    exact ⟨by decide, jsonStr_newline k, by decide, dumps_newline F v h.1, items_newline F r h.2⟩
end

theorem lines_ne (s : PyStr) : lines s ≠ [] := by
  cases s with
  | nil => simp [lines]
  | cons c s =>
    rw [lines]
    split
    · simp
    · split <;> simp

theorem lines_append {s t : PyStr} (h : '\n' ∉ s) : lines (s ++ '\n' :: t) = s :: lines t := by
  induction s with
  | nil =>
    rw [List.nil_append, lines]
    cases e : lines t with
    | nil => exact absurd e (lines_ne t)
    | cons l ls => rfl
  | cons c s ih =>
    rw [List.mem_cons, not_or] at h
    rw [List.cons_append, lines, ih h.2]
    dsimp only
    rw [if_neg (fun e => h.1 e.symm)]

/-- The dict of a delete operation. -/
def deleteAction (index docId : PyStr) : Value :=
  .dict [("delete".toList, .dict [("_index".toList, .str index), ("_id".toList, .str docId)])]

theorem jsonStr_plain {s : PyStr} (h : PlainStr s) : jsonStr s = '"' :: (s ++ ['"']) := by
  rw [jsonStr, plain_escaped h]

theorem dumps_two (F : FloatText) (a b c index docId : PyStr) :
    dumps F (.dict [(a, .dict [(b, .str index), (c, .str docId)])]) =
    '{' :: (jsonStr a ++ ':' :: ('{' :: (jsonStr b ++ ':' :: (jsonStr index ++ ',' :: (jsonStr c ++ ':' ::
      (jsonStr docId ++ ['}'])))) ++ ['}'])) := by
  simp only [dumps, dumpsItems]
  rfl

theorem delete_parts : ∃ a b c x1 x2 x3 y1 y2 y3, jsonStr a = x1 ∧ jsonStr b = x2 ∧ jsonStr c = x3 ∧
    y1 = '{' :: (x1 ++ ':' :: '{' :: (x2 ++ [':', '"'])) ∧ y2 = '"' :: ',' :: (x3 ++ [':', '"']) ∧ y3 = ['"', '}', '}'] ∧
    ∀ index docId, deleteAction index docId = .dict [(a, .dict [(b, .str index), (c, .str docId)])] ∧
      serialiseDelete index docId = y1 ++ index ++ y2 ++ docId ++ y3 :=
  ⟨"delete".toList, "_index".toList, "_id".toList, _, _, _, "{\"delete\":{\"_index\":\"".toList, "\",\"_id\":\"".toList,
    "\"}}".toList, rfl, rfl, rfl, by decide, by decide, by decide, fun _ _ => ⟨rfl, rfl⟩⟩

theorem serialiseDelete_dumps {F : FloatText} {index docId : PyStr} (h1 : PlainStr index) (h2 : PlainStr docId) :
    serialiseDelete index docId = dumps F (deleteAction index docId) := by
  obtain ⟨a, b, c, x1, x2, x3, y1, y2, y3, k1, k2, k3, f1, f2, f3, h⟩ := delete_parts
  rw [(h index docId).1, (h index docId).2, dumps_two, k1, k2, k3, f1, f2, f3, jsonStr_plain h1, jsonStr_plain h2]
  simp only [List.append_assoc, List.cons_append, List.nil_append]

theorem plain_toDigits (n : Nat) : PlainStr (Nat.toDigits 10 n) := by
  intro c hc
  have := Nat.isDigit_of_mem_toDigits (b := 10) (by omega) (by omega) hc
  refine ⟨?_, ?_, ?_⟩
  · rintro rfl; exact absurd this (by decide)
  · rintro rfl; exact absurd this (by decide)
  · simp only [Char.isDigit, Bool.and_eq_true, decide_eq_true_eq] at this
    have h1 := this.1
    have : (48 : Nat) ≤ c.val.toNat := by
      have := UInt32.le_iff_toNat_le.1 h1
      simpa using this
    show 32 ≤ c.val.toNat
    omega

theorem PlainStr.append {a b : PyStr} (ha : PlainStr a) (hb : PlainStr b) : PlainStr (a ++ b) := by
  intro c hc
  rcases List.mem_append.1 hc with h | h
  · exact ha c h
  · exact hb c h

theorem indexName_plain {db : PyStr} (h : PlainStr db) (ix : Ix) : PlainStr (indexName db ix) := by
  cases ix with
  | latest =>
    exact (PlainStr.append (by unfold PlainStr; decide) h).append (by unfold PlainStr; decide)
  | arc n =>
    exact (((PlainStr.append (by unfold PlainStr; decide) h).append (by unfold PlainStr; decide)).append
      (by unfold PlainStr; decide)).append (plain_toDigits n)

theorem indexAction_kept (F : FloatText) (index : PyStr) (docId : Option PyStr) : FloatsKept F (indexAction index docId) := by
  cases docId <;> simp [indexAction, FloatsKept, FloatsKeptDict]

theorem deleteAction_kept (F : FloatText) (index docId : PyStr) : FloatsKept F (deleteAction index docId) := by
  simp [deleteAction, FloatsKept, FloatsKeptDict]

theorem readBulk_delete {F : FloatText} {index docId : PyStr} {ls : List PyStr} (hls : ls ≠ []) :
    readBulk F (dumps F (deleteAction index docId) :: ls) = (readBulk F ls).map (WireOp.delete index docId :: ·) := by
  cases ls with
  | nil => exact absurd rfl hls
  | cons l ls =>
    rw [readBulk, loads_dumps (deleteAction_kept F index docId)]
    rfl

theorem readBulk_index {F : FloatText} {index : PyStr} {docId : Option PyStr} {doc : Dict} {ls : List PyStr}
    (h : FloatsKept F (.dict doc)) :
    readBulk F (dumps F (indexAction index docId) :: dumps F (.dict doc) :: ls) =
      (readBulk F ls).map (WireOp.index index docId (sentDict doc) :: ·) := by
  rw [readBulk, loads_dumps (indexAction_kept F index docId), loads_dumps h]
  cases docId <;> rfl

/-- The request is read as the operations that it was made of. -/
theorem read_body {F : FloatText} {db : PyStr} (ops : List (BulkOp ParsedData)) (hw : ∀ op ∈ ops, op.CanWrite F)
    (hp : ∀ op ∈ ops, op.PlainDelete) (hdb : (∃ ix id, BulkOp.delete ix id ∈ ops) → PlainStr db) :
    ∃ body, bulkBody F db ops = .ok body ∧ readBulk F (lines body) = some (ops.map (BulkOp.wire db)) := by
  induction ops with
  | nil => exact ⟨[], rfl, rfl⟩
  | cons op ops ih =>
    obtain ⟨body, h1, h2⟩ := ih (fun o ho => hw o (List.mem_cons_of_mem _ ho)) (fun o ho => hp o (List.mem_cons_of_mem _ ho))
      (fun ⟨ix, id, h⟩ => hdb ⟨ix, id, List.mem_cons_of_mem _ h⟩)
    cases op with
    | index ix docId doc =>
      obtain ⟨hd, hk⟩ := hw _ List.mem_cons_self
      refine ⟨_, by rw [bulkBody, BulkOp.serialise, if_pos hd, h1], ?_⟩
      rw [List.append_assoc, List.cons_append, lines_append (dumps_newline F _ (indexAction_kept F _ _)),
        lines_append (dumps_newline F _ hk), readBulk_index hk, h2]
      rfl
    | delete ix docId =>
      have h3 : PlainStr docId := hp _ List.mem_cons_self
      have h4 := indexName_plain (hdb ⟨ix, docId, List.mem_cons_self⟩) ix
      refine ⟨_, by rw [bulkBody, BulkOp.serialise, h1], ?_⟩
      rw [serialiseDelete_dumps (F := F) h4 h3, lines_append (dumps_newline F _ (deleteAction_kept F _ _)),
        readBulk_delete (lines_ne body), h2]
      rfl

end Splitgill
