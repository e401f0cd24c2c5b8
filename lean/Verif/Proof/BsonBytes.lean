import Verif.Spec.BsonBytes
import Verif.Proof.Json
import Verif.Proof.Bson2
/-!
# Lemmas: values in BSON
-/

namespace Splitgill

/-! ## Numbers -/

theorem leBytes_length : ∀ k n, (leBytes k n).length = k
  | 0, _ => rfl
  | k + 1, n => by rw [leBytes, List.length_cons, leBytes_length k]

theorem ofLeBytes_leBytes : ∀ k n, n < 256 ^ k → ofLeBytes (leBytes k n) = n
  | 0, n, h => by simp at h; subst h; rfl
  | k + 1, n, h => by
    rw [leBytes, ofLeBytes, ofLeBytes_leBytes k (n / 256) (by rw [Nat.pow_succ] at h; omega)]
    have : (UInt8.ofNat (n % 256)).toNat = n % 256 := by
      rw [UInt8.toNat_ofNat']
      omega
    rw [this]
    omega

theorem ofSigned_four {i : Int} (h : -2 ^ 31 ≤ i ∧ i < 2 ^ 31) : ofSigned (signedBytes 4 i) = i := by
  unfold ofSigned signedBytes
  rw [leBytes_length, ofLeBytes_leBytes 4 _ (by norm_num; omega)]
  norm_num
  norm_num at h
  split <;> omega

theorem ofSigned_eight {i : Int} (h : -2 ^ 63 ≤ i ∧ i < 2 ^ 63) : ofSigned (signedBytes 8 i) = i := by
  unfold ofSigned signedBytes
  rw [leBytes_length, ofLeBytes_leBytes 8 _ (by norm_num; omega)]
  norm_num
  norm_num at h
  split <;> omega

/-! ## Texts -/

theorem utf8_length (s : PyStr) : (utf8 s).length = utf8Bytes s := by
  unfold utf8 utf8Bytes
  induction s with
  | nil => rfl
  | cons c s ih => rw [List.flatMap_cons, List.length_append, ih, String.length_utf8EncodeChar, List.map_cons, List.sum_cons]

theorem readUtf8_utf8 (s : PyStr) : readUtf8 (utf8 s) = some s := by
  have : (utf8 s).toByteArray = s.utf8Encode := rfl
  unfold readUtf8
  rw [this, List.utf8Decode?_utf8Encode]
  simp

theorem utf8Char_ne_zero {c : Char} (h : c ≠ '\x00') : (0 : UInt8) ∉ String.utf8EncodeChar c := by
  have hz : ∀ n : Nat, n < 256 → 0 < n → (0 : UInt8) ≠ UInt8.ofNat n := by
    intro n h1 h2 e
    have := congrArg UInt8.toNat e
    rw [UInt8.toNat_ofNat'] at this
    simp at this
    omega
  have hv : 0 < c.val.toNat := by
    rcases Nat.eq_zero_or_pos c.val.toNat with e | e
    · exact absurd (Char.ext (UInt32.toNat_inj.1 e)) h
    · exact e
  unfold String.utf8EncodeChar
  dsimp only
  intro hm
  split at hm
  · exact hz _ (by omega) hv (List.mem_singleton.1 hm)
  · split at hm
    · rcases List.mem_cons.1 hm with e | hm
      · exact hz _ (by omega) (by omega) e
      · exact hz _ (by omega) (by omega) (List.mem_singleton.1 hm)
    · split at hm
      · rcases List.mem_cons.1 hm with e | hm
        · exact hz _ (by omega) (by omega) e
        · rcases List.mem_cons.1 hm with e | hm
          · exact hz _ (by omega) (by omega) e
          · exact hz _ (by omega) (by omega) (List.mem_singleton.1 hm)
      · rcases List.mem_cons.1 hm with e | hm
        · exact hz _ (by omega) (by omega) e
        · rcases List.mem_cons.1 hm with e | hm
          · exact hz _ (by omega) (by omega) e
          · rcases List.mem_cons.1 hm with e | hm
            · exact hz _ (by omega) (by omega) e
            · exact hz _ (by omega) (by omega) (List.mem_singleton.1 hm)

theorem utf8_ne_zero {s : PyStr} (h : NoNul s) : (0 : UInt8) ∉ utf8 s := by
  unfold utf8
  rw [List.mem_flatMap]
  rintro ⟨c, hc, h0⟩
  exact utf8Char_ne_zero (fun e => h (e ▸ hc)) h0

theorem readCString_append : ∀ {a : List UInt8} (r : List UInt8), (0 : UInt8) ∉ a → readCString (a ++ 0 :: r) = some (a, r)
  | [], r, _ => by simp [readCString]
  | b :: a, r, h => by
    have hb : b ≠ 0 := fun e => h (by rw [e]; exact List.mem_cons_self)
    rw [List.cons_append, readCString, if_neg hb, readCString_append r (fun e => h (List.mem_cons_of_mem _ e))]
    rfl

theorem digitsBytes {l : PyStr} (h : ∀ c ∈ l, c.isDigit = true) : utf8Bytes l = l.length := by
  unfold utf8Bytes
  induction l with
  | nil => rfl
  | cons c l ih =>
    rw [List.map_cons, List.sum_cons, ih (fun x hx => h x (List.mem_cons_of_mem _ hx)), List.length_cons]
    have hc := h c List.mem_cons_self
    have : c.utf8Size = 1 := by
      have : c.val.toNat ≤ 57 := by
        simp only [Char.isDigit, Bool.and_eq_true, decide_eq_true_eq] at hc
        exact hc.2
      unfold Char.utf8Size
      have h2 : c.val ≤ UInt32.ofNatLT 0x7F (by decide) := by
        rw [UInt32.le_iff_toNat_le]
        show c.val.toNat ≤ 127
        omega
      exact if_pos h2
    omega

theorem indexBytes (i : Nat) : utf8Bytes (intStr i) = (intStr i).length := by
  refine digitsBytes fun c hc => ?_
  exact List.all_eq_true.1 (digits_all i) c hc

theorem index_noNul (i : Nat) : NoNul (intStr i) := by
  intro h
  have := List.all_eq_true.1 (digits_all i) _ h
  revert this; decide

/-! ## Sizes -/

mutual
/-- The size of a value is the number of its bytes. -/
theorem bsonBytes_length (F : FloatBytes) : ∀ v : Value, (bsonBytes F v).length = bsonSize v
  | .none => by rw [bsonBytes, bsonSize]; rfl
  | .bool b => by rw [bsonBytes, bsonSize]; rfl
  | .int i => by
    rw [bsonBytes, bsonSize]
    split <;> exact leBytes_length _ _
  | .float f => by rw [bsonBytes, bsonSize]; exact F.eight f
  | .str s => by rw [bsonBytes, bsonSize]; simp [leBytes_length, utf8_length]; omega
  | .list l => by
    have := bsonItems_length F l 0
    rw [bsonBytes, bsonSize]; simp [leBytes_length, this]; omega
  | .dict d => by
    have := bsonFields_length F d
    rw [bsonBytes, bsonSize]; simp [leBytes_length, this]; omega
theorem bsonItems_length (F : FloatBytes) : ∀ (l : List Value) (i : Nat), (bsonItems F i l).length = bsonSizeList i l
  | [], _ => by rw [bsonItems, bsonSizeList]; rfl
  | v :: r, i => by
    have h1 := bsonBytes_length F v
    have h2 := bsonItems_length F r (i + 1)
    rw [bsonItems, bsonSizeList]
    simp [utf8_length, h1, h2, indexBytes]
    omega
theorem bsonFields_length (F : FloatBytes) : ∀ d : Dict, (bsonFields F d).length = bsonSizeDict d
  | [] => by rw [bsonFields, bsonSizeDict]; rfl
  | (k, v) :: r => by
    have h1 := bsonBytes_length F v
    have h2 := bsonFields_length F r
    rw [bsonFields, bsonSizeDict]
    simp [utf8_length, h1, h2]
    omega
end

/-! ## Reading -/

theorem readBody_append {e : List UInt8} (r : List UInt8) (h : e.length + 5 < 2 ^ 32) :
    readBody (leBytes 4 (e.length + 5) ++ e ++ [0] ++ r) = some (e, r) := by
  have h4 : (leBytes 4 (e.length + 5)).length = 4 := leBytes_length _ _
  have ht : ofLeBytes ((leBytes 4 (e.length + 5) ++ e ++ [0] ++ r).take 4) = e.length + 5 := by
    rw [List.append_assoc, List.append_assoc, List.take_left' h4, ofLeBytes_leBytes 4 _ (by norm_num; omega)]
  unfold readBody
  dsimp only
  rw [ht]
  have hd : ∀ x : List UInt8, (leBytes 4 (e.length + 5) ++ x).drop 4 = x := fun x => List.drop_left' h4
  have hlen : (leBytes 4 (e.length + 5) ++ e).length = e.length + 4 := by rw [List.length_append, h4]; omega
  rw [if_neg (by simp [h4]; omega)]
  have e1 : (leBytes 4 (e.length + 5) ++ e ++ [0] ++ r).drop (e.length + 5 - 1) = 0 :: r := by
    rw [List.append_assoc _ [0] r]
    exact List.drop_left' (by omega)
  have e2 : (leBytes 4 (e.length + 5) ++ e ++ [0] ++ r).drop (e.length + 5) = r :=
    List.drop_left' (by rw [List.length_append, hlen]; rfl)
  rw [e1, e2, if_pos (by rfl), List.append_assoc, List.append_assoc, hd]
  simp

theorem bsonType_ne (v : Value) : bsonType v ≠ 0 := by
  cases v <;> simp only [bsonType] <;> first | decide | (split <;> decide)

theorem readBson_int (F : FloatBytes) (n : Nat) (bs : List UInt8) :
    readBson F (n + 1) 0x10 bs = if bs.length < 4 then none else some (.int (ofSigned (bs.take 4)), bs.drop 4) := by
  rw [readBson.eq_def]; rfl

theorem readBson_long (F : FloatBytes) (n : Nat) (bs : List UInt8) :
    readBson F (n + 1) 0x12 bs = if bs.length < 8 then none else some (.int (ofSigned (bs.take 8)), bs.drop 8) := by
  rw [readBson.eq_def]; rfl

theorem readBson_float (F : FloatBytes) (n : Nat) (bs : List UInt8) :
    readBson F (n + 1) 0x01 bs = if bs.length < 8 then none else some (.float (F.read (bs.take 8)), bs.drop 8) := by
  rw [readBson.eq_def]; rfl

theorem readBson_str (F : FloatBytes) (n : Nat) (bs : List UInt8) :
    readBson F (n + 1) 0x02 bs = if ofLeBytes (bs.take 4) < 1 ∨ bs.length < 4 + ofLeBytes (bs.take 4) then none
      else if (bs.drop (3 + ofLeBytes (bs.take 4))).head? = some 0 then
        (readUtf8 ((bs.drop 4).take (ofLeBytes (bs.take 4) - 1))).map (fun s => (.str s, bs.drop (4 + ofLeBytes (bs.take 4))))
      else none := by
  rw [readBson.eq_def]; rfl

theorem readBson_list (F : FloatBytes) (n : Nat) (bs : List UInt8) :
    readBson F (n + 1) 0x04 bs =
      (readBody bs).bind (fun x => (readBsonFields F n x.1).map (fun d => (.list (d.map Prod.snd), x.2))) := by
  rw [readBson.eq_def]; rfl

theorem readBson_dict (F : FloatBytes) (n : Nat) (bs : List UInt8) :
    readBson F (n + 1) 0x03 bs = (readBody bs).bind (fun x => (readBsonFields F n x.1).map (fun d => (.dict d, x.2))) := by
  rw [readBson.eq_def]; rfl

mutual
theorem readBson_bytes (F : FloatBytes) : ∀ (v : Value), Bsonable F v → bsonSize v < 2 ^ 31 → ∀ (n : Nat) (r : List UInt8),
    (bsonBytes F v).length < n → readBson F n (bsonType v) (bsonBytes F v ++ r) = some (v, r)
  | v, _, _, 0, r, hn => by omega
  | .none, _, _, n + 1, r, _ => by simp [readBson, bsonType, bsonBytes]
  | .bool b, _, _, n + 1, r, _ => by cases b <;> simp [readBson, bsonType, bsonBytes]
  | .int i, h, _, n + 1, r, _ => by
    have hi := (h.1 : (Int64 (.int i) ∧ _)).1 i rfl
    rw [bsonBytes, bsonType]
    by_cases hs : -2 ^ 31 ≤ i ∧ i < 2 ^ 31
    · have h4 : (signedBytes 4 i).length = 4 := leBytes_length _ _
      rw [if_pos hs, if_pos hs, readBson_int]
      rw [if_neg (by rw [List.length_append]; omega), List.take_left' h4, List.drop_left' h4, ofSigned_four hs]
    · have h8 : (signedBytes 8 i).length = 8 := leBytes_length _ _
      rw [if_neg hs, if_neg hs, readBson_long]
      rw [if_neg (by rw [List.length_append]; omega), List.take_left' h8, List.drop_left' h8, ofSigned_eight hi]
  | .float f, h, _, n + 1, r, _ => by
    have hf := (h.1 : (_ ∧ F.Keeps (.float f))).2 f rfl
    have h8 := F.eight f
    rw [bsonBytes, bsonType, readBson_float]
    rw [if_neg (by rw [List.length_append]; omega), List.take_left' h8, List.drop_left' h8, hf]
  | .str s, _, hz, n + 1, r, _ => by
    rw [bsonSize] at hz
    have hl := utf8_length s
    have h4 : (leBytes 4 ((utf8 s).length + 1)).length = 4 := leBytes_length _ _
    rw [bsonBytes, bsonType, readBson_str]
    have ht : ofLeBytes ((leBytes 4 ((utf8 s).length + 1) ++ utf8 s ++ [0] ++ r).take 4) = (utf8 s).length + 1 := by
      rw [List.append_assoc, List.append_assoc, List.take_left' h4, ofLeBytes_leBytes 4 _ (by norm_num; omega)]
    rw [ht]
    have hlen : (leBytes 4 ((utf8 s).length + 1) ++ utf8 s).length = (utf8 s).length + 4 := by rw [List.length_append, h4]; omega
    rw [if_neg (by simp [h4])]
    have e1 : (leBytes 4 ((utf8 s).length + 1) ++ utf8 s ++ [0] ++ r).drop (3 + ((utf8 s).length + 1)) = 0 :: r := by
      rw [List.append_assoc _ [0] r]
      exact List.drop_left' (by omega)
    have e2 : (leBytes 4 ((utf8 s).length + 1) ++ utf8 s ++ [0] ++ r).drop (4 + ((utf8 s).length + 1)) = r :=
      List.drop_left' (by rw [List.length_append, hlen]; simp; omega)
    have e3 : ((leBytes 4 ((utf8 s).length + 1) ++ utf8 s ++ [0] ++ r).drop 4).take ((utf8 s).length + 1 - 1) = utf8 s := by
      rw [List.append_assoc, List.append_assoc, List.drop_left' h4]
      simp
    rw [e1, e2, e3, if_pos (by rfl), readUtf8_utf8]
    rfl
  | .list l, h, hz, n + 1, r, hn => by
    have hlen := bsonItems_length F l 0
    rw [bsonSize] at hz
    rw [bsonBytes_length, bsonSize] at hn
    have := readItems_bytes F l 0 h (by omega) n (by omega)
    rw [bsonBytes, bsonType, readBson_list]
    obtain ⟨d, h1, h2⟩ := this
    rw [readBody_append r (by rw [hlen]; omega), Option.bind_some, h1, Option.map_some, h2]
  | .dict d, h, hz, n + 1, r, hn => by
    have hlen := bsonFields_length F d
    rw [bsonSize] at hz
    rw [bsonBytes_length, bsonSize] at hn
    have := readBsonFields_bytes F d h (by omega) n (by omega)
    rw [bsonBytes, bsonType, readBson_dict]
    rw [readBody_append r (by rw [hlen]; omega), Option.bind_some, this, Option.map_some]
theorem readItems_bytes (F : FloatBytes) : ∀ (l : List Value) (i : Nat), Bsonable F (.list l) → bsonSizeList i l < 2 ^ 31 → ∀ n : Nat,
    bsonSizeList i l < n → ∃ d, readBsonFields F n (bsonItems F i l) = some d ∧ d.map Prod.snd = l
  | l, _, _, _, 0, hn => by omega
  | [], _, _, _, n + 1, _ => ⟨[], by simp [bsonItems, readBsonFields], rfl⟩
  | v :: l, i, h, hz, n + 1, hn => by
    rw [bsonSizeList] at hz hn
    have hv : Bsonable F v := ⟨h.1.1, h.2.1⟩
    have h1 := readBson_bytes F v hv (by omega) n (bsonItems F (i + 1) l) (by rw [bsonBytes_length]; omega)
    obtain ⟨d, h2, h3⟩ := readItems_bytes F l (i + 1) ⟨h.1.2, h.2.2⟩ (by omega) n (by omega)
    refine ⟨(intStr i, v) :: d, ?_, by rw [List.map_cons, h3]⟩
    rw [bsonItems, readBsonFields, readCString_append _ (utf8_ne_zero (index_noNul i)), Option.bind_some, readUtf8_utf8, Option.bind_some, h1,
      Option.bind_some, h2, Option.map_some]
theorem readBsonFields_bytes (F : FloatBytes) : ∀ (d : Dict), Bsonable F (.dict d) → bsonSizeDict d < 2 ^ 31 → ∀ n : Nat,
    bsonSizeDict d < n → readBsonFields F n (bsonFields F d) = some d
  | d, _, _, 0, hn => by omega
  | [], _, _, n + 1, _ => by simp [bsonFields, readBsonFields]
  | (k, v) :: d, h, hz, n + 1, hn => by
    rw [bsonSizeDict] at hz hn
    have hv : Bsonable F v := ⟨h.1.1, h.2.1.2⟩
    have h1 := readBson_bytes F v hv (by omega) n (bsonFields F d) (by rw [bsonBytes_length]; omega)
    have h2 := readBsonFields_bytes F d ⟨h.1.2, h.2.2⟩ (by omega) n (by omega)
    rw [bsonFields, readBsonFields, readCString_append _ (utf8_ne_zero h.2.1.1), Option.bind_some, readUtf8_utf8, Option.bind_some, h1,
      Option.bind_some, h2, Option.map_some]
end

end Splitgill
