import Verif.Spec.GeoFloat
import Verif.Proof.Geo2
import Verif.Proof.FloatText
/-!
# Lemmas on the winding check with floats
-/

namespace Splitgill

/-- The unit of rounding. -/
def ulp : ℚ := 1 / 2 ^ 53

theorem ulp_pos : 0 < ulp := by norm_num [ulp]

theorem ulp_small : ulp ≤ 1 / 100 := by norm_num [ulp]

theorem fl_err (x : ℚ) : |fl x - x| ≤ ulp * |x| := by
  have h := fl_close x
  rw [abs_sub_comm] at h
  unfold ulp
  rw [one_div, inv_mul_eq_div, le_div_iff₀ (by positivity)]
  exact h

theorem fl_size (x : ℚ) : |fl x| ≤ (1 + ulp) * |x| := by
  have h := fl_err x
  have h2 : |fl x| ≤ |fl x - x| + |x| := by simpa using abs_add_le (fl x - x) x
  linarith

/-- `y` is `x` up to `k` roundings. -/
def Close (k : Nat) (x y : ℚ) : Prop := |y - x| ≤ ((1 + ulp) ^ k - 1) * |x|

theorem one_le_pow_ulp (k : Nat) : 1 ≤ (1 + ulp) ^ k := one_le_pow₀ (by linarith [ulp_pos])

theorem Close.size {k : Nat} {x y : ℚ} (h : Close k x y) : |y| ≤ (1 + ulp) ^ k * |x| := by
  have h2 : |y| ≤ |y - x| + |x| := by simpa using abs_add_le (y - x) x
  unfold Close at h
  linarith

theorem Close.fl {k : Nat} {x y : ℚ} (h : Close k x y) : Close (k + 1) x (fl y) := by
  have h1 := fl_err y
  have h2 := h.size
  have h3 : |Splitgill.fl y - x| ≤ |Splitgill.fl y - y| + |y - x| := by simpa using abs_add_le (Splitgill.fl y - y) (y - x)
  have h4 : ulp * |y| ≤ ulp * ((1 + ulp) ^ k * |x|) := mul_le_mul_of_nonneg_left h2 ulp_pos.le
  unfold Close at h ⊢
  rw [pow_succ]
  linarith

theorem close_refl (x : ℚ) : Close 0 x x := by simp [Close]

theorem Close.mul {j k : Nat} {a b x y : ℚ} (ha : Close j a x) (hb : Close k b y) : Close (j + k) (a * b) (x * y) := by
  have h1 := hb.size
  unfold Close at *
  have e : x * y - a * b = (x - a) * y + a * (y - b) := by ring
  rw [e, pow_add, abs_mul]
  have h2 := abs_add_le ((x - a) * y) (a * (y - b))
  rw [abs_mul, abs_mul] at h2
  have h3 : |x - a| * |y| ≤ (((1 + ulp) ^ j - 1) * |a|) * ((1 + ulp) ^ k * |b|) :=
    mul_le_mul ha h1 (abs_nonneg _) (mul_nonneg (by linarith [one_le_pow_ulp j]) (abs_nonneg _))
  have h4 : |a| * |y - b| ≤ |a| * (((1 + ulp) ^ k - 1) * |b|) := mul_le_mul_of_nonneg_left hb (abs_nonneg _)
  linarith

theorem edgeFl_close (a b : Coord) : Close 3 ((b.x - a.x) * (b.y + a.y)) (edgeFl a b) :=
  ((close_refl _).fl.mul (close_refl _).fl).fl

/-! ## Sums -/

section Steps
variable {s E A g x e h : ℚ}

theorem sum_step (hs : |s - E| ≤ (g - 1) * A) (hE : |E| ≤ A) (hx : |x - e| ≤ (h - 1) * |e|) (hg : h ≤ g) :
    |s + x| ≤ g * (A + |e|) ∧ |fl (s + x) - (E + e)| ≤ ((1 + ulp) * g - 1) * (A + |e|) := by
  have h1 : |(s + x) - (E + e)| ≤ (g - 1) * (A + |e|) := by
    have e1 : (s + x) - (E + e) = (s - E) + (x - e) := by ring
    rw [e1]
    have := abs_add_le (s - E) (x - e)
    have : (h - 1) * |e| ≤ (g - 1) * |e| := mul_le_mul_of_nonneg_right (by linarith) (abs_nonneg _)
    linarith
  have h2 : |E + e| ≤ A + |e| := (abs_add_le E e).trans (by linarith)
  have h3 : |s + x| ≤ |(s + x) - (E + e)| + |E + e| := by simpa using abs_add_le ((s + x) - (E + e)) (E + e)
  have h4 : |s + x| ≤ g * (A + |e|) := by linarith
  refine ⟨h4, ?_⟩
  have h5 := fl_err (s + x)
  have h6 : ulp * |s + x| ≤ ulp * (g * (A + |e|)) := mul_le_mul_of_nonneg_left h4 ulp_pos.le
  have h7 : |fl (s + x) - (E + e)| ≤ |fl (s + x) - (s + x)| + |(s + x) - (E + e)| := by
    simpa using abs_add_le (fl (s + x) - (s + x)) ((s + x) - (E + e))
  linarith

theorem correction {a b t M : ℚ} (hM : 0 ≤ M) (hb : |b| ≤ M) (ht : |t - (a + b)| ≤ ulp * M) : |fl (fl (a - t) + b)| ≤ 3 * ulp * M := by
  have h1 : |a - t| ≤ (1 + ulp) * M := by
    have e1 : a - t = -(t - (a + b)) + -b := by ring
    rw [e1]
    have := abs_add_le (-(t - (a + b))) (-b)
    rw [abs_neg, abs_neg] at this
    linarith
  have h2 : |fl (a - t) + b| ≤ ulp * (2 + ulp) * M := by
    have e1 : fl (a - t) + b = (fl (a - t) - (a - t)) + -(t - (a + b)) := by ring
    rw [e1]
    have := abs_add_le (fl (a - t) - (a - t)) (-(t - (a + b)))
    rw [abs_neg] at this
    have h3 := fl_err (a - t)
    have h4 : ulp * |a - t| ≤ ulp * ((1 + ulp) * M) := mul_le_mul_of_nonneg_left h1 ulp_pos.le
    linarith
  have h3 := fl_size (fl (a - t) + b)
  have h4 : (1 + ulp) * |fl (a - t) + b| ≤ (1 + ulp) * (ulp * (2 + ulp) * M) :=
    mul_le_mul_of_nonneg_left h2 (by linarith [ulp_pos])
  have h5 : (1 + ulp) * (2 + ulp) ≤ 3 := by nlinarith [ulp_pos, ulp_small]
  have h6 : (1 + ulp) * (2 + ulp) * (ulp * M) ≤ 3 * (ulp * M) := mul_le_mul_of_nonneg_right h5 (mul_nonneg ulp_pos.le hM)
  linarith

end Steps

/-- Sums of numbers of which another sum is known up to roundings. -/
theorem plain_fold : ∀ (l : List (ℚ × ℚ)), (∀ p ∈ l, Close 3 p.1 p.2) → ∀ (s E A : ℚ) (k : Nat),
    |s - E| ≤ ((1 + ulp) ^ (k + 3) - 1) * A → |E| ≤ A →
    |(l.map Prod.snd).foldl (fun s x => fl (s + x)) s - (E + (l.map Prod.fst).sum)| ≤
      ((1 + ulp) ^ (k + l.length + 3) - 1) * (A + (l.map (fun p => |p.1|)).sum)
  | [], _, s, E, A, k, h1, _ => by simpa using h1
  | p :: l, hl, s, E, A, k, h1, h2 => by
    have hp := hl p List.mem_cons_self
    have key := (sum_step h1 h2 hp (pow_le_pow_right₀ (by linarith [ulp_pos]) (by omega))).2
    have h3 := plain_fold l (fun q hq => hl q (List.mem_cons_of_mem _ hq)) (fl (s + p.2)) (E + p.1) (A + |p.1|) (k + 1)
      (by rw [show k + 1 + 3 = (k + 3) + 1 by omega, pow_succ']; exact key) ((abs_add_le _ _).trans (by linarith))
    simp only [List.map_cons, List.foldl_cons, List.sum_cons, List.length_cons]
    rw [show k + (l.length + 1) + 3 = k + 1 + l.length + 3 by omega, ← add_assoc, ← add_assoc]
    exact h3

theorem compensated_fold : ∀ (l : List (ℚ × ℚ)), (∀ p ∈ l, Close 3 p.1 p.2) → ∀ (s c E A : ℚ) (k : Nat),
    |s - E| ≤ ((1 + ulp) ^ (k + 3) - 1) * A → |E| ≤ A → |c| ≤ 3 * k * ulp * ((1 + ulp) ^ (k + 3) * A) →
    |((l.map Prod.snd).foldl compensate (s, c)).1 - (E + (l.map Prod.fst).sum)| ≤
      ((1 + ulp) ^ (k + l.length + 3) - 1) * (A + (l.map (fun p => |p.1|)).sum) ∧
    |((l.map Prod.snd).foldl compensate (s, c)).2| ≤
      3 * ((k + l.length : ℕ) : ℚ) * ulp * ((1 + ulp) ^ (k + l.length + 3) * (A + (l.map (fun p => |p.1|)).sum))
  | [], _, s, c, E, A, k, h1, _, h3 => by
    refine ⟨by simpa using h1, by simpa using h3⟩
  | p :: l, hl, s, c, E, A, k, h1, h2, h3 => by
    have hp := hl p List.mem_cons_self
    have hg : (1 + ulp) ^ 3 ≤ (1 + ulp) ^ (k + 3) := pow_le_pow_right₀ (by linarith [ulp_pos]) (by omega)
    have hg1 := one_le_pow_ulp (k + 3)
    have key := sum_step h1 h2 hp hg
    have hA : 0 ≤ A := (abs_nonneg _).trans h2
    have hM : 0 ≤ (1 + ulp) ^ (k + 3) * (A + |p.1|) := mul_nonneg (by linarith) (add_nonneg hA (abs_nonneg _))
    have hsize : |s| ≤ (1 + ulp) ^ (k + 3) * (A + |p.1|) := by
      have : |s| ≤ |s - E| + |E| := by simpa using abs_add_le (s - E) E
      have : 0 ≤ (1 + ulp) ^ (k + 3) * |p.1| := mul_nonneg (by linarith) (abs_nonneg _)
      linarith
    have hsize2 : |p.2| ≤ (1 + ulp) ^ (k + 3) * (A + |p.1|) := by
      have h4 := hp.size
      have h5 : (1 + ulp) ^ 3 * |p.1| ≤ (1 + ulp) ^ (k + 3) * |p.1| := mul_le_mul_of_nonneg_right hg (abs_nonneg _)
      have : 0 ≤ (1 + ulp) ^ (k + 3) * A := mul_nonneg (by linarith) hA
      linarith
    have ht : |fl (s + p.2) - (s + p.2)| ≤ ulp * ((1 + ulp) ^ (k + 3) * (A + |p.1|)) :=
      (fl_err _).trans (mul_le_mul_of_nonneg_left key.1 ulp_pos.le)
    have hd : |if |p.2| ≤ |s| then fl (fl (s - fl (s + p.2)) + p.2) else fl (fl (p.2 - fl (s + p.2)) + s)| ≤
        3 * ulp * ((1 + ulp) ^ (k + 3) * (A + |p.1|)) := by
      split
      · exact correction hM hsize2 ht
      · exact correction hM hsize (by rw [add_comm p.2 s]; exact ht)
    have hc : |fl (c + if |p.2| ≤ |s| then fl (fl (s - fl (s + p.2)) + p.2) else fl (fl (p.2 - fl (s + p.2)) + s))| ≤
        3 * ((k + 1 : ℕ) : ℚ) * ulp * ((1 + ulp) ^ (k + 1 + 3) * (A + |p.1|)) := by
      generalize (if |p.2| ≤ |s| then fl (fl (s - fl (s + p.2)) + p.2) else fl (fl (p.2 - fl (s + p.2)) + s)) = d at hd
      have h4 := fl_size (c + d)
      have h5 := abs_add_le c d
      have h6 : 3 * (k : ℚ) * ulp * ((1 + ulp) ^ (k + 3) * A) ≤ 3 * (k : ℚ) * ulp * ((1 + ulp) ^ (k + 3) * (A + |p.1|)) := by
        refine mul_le_mul_of_nonneg_left (mul_le_mul_of_nonneg_left (by linarith [abs_nonneg p.1]) (by linarith)) ?_
        have := ulp_pos
        positivity
      have h7 : |c + d| ≤ 3 * ((k : ℚ) + 1) * ulp * ((1 + ulp) ^ (k + 3) * (A + |p.1|)) := by linarith
      have h8 : (1 + ulp) * |c + d| ≤ (1 + ulp) * (3 * ((k : ℚ) + 1) * ulp * ((1 + ulp) ^ (k + 3) * (A + |p.1|))) :=
        mul_le_mul_of_nonneg_left h7 (by linarith [ulp_pos])
      rw [show k + 1 + 3 = (k + 3) + 1 by omega, pow_succ]
      push_cast
      linarith
    have h4 := compensated_fold l (fun q hq => hl q (List.mem_cons_of_mem _ hq)) (fl (s + p.2)) _ (E + p.1) (A + |p.1|) (k + 1)
      (by rw [show k + 1 + 3 = (k + 3) + 1 by omega, pow_succ']; exact key.2) ((abs_add_le _ _).trans (by linarith)) hc
    simp only [List.map_cons, List.foldl_cons, List.sum_cons, List.length_cons, compensate]
    rw [show k + (l.length + 1) + 3 = k + 1 + l.length + 3 by omega, show k + (l.length + 1) = k + 1 + l.length by omega, ← add_assoc,
      ← add_assoc]
    exact h4

/-- The error of both sums. -/
theorem pySum_error (newer : Bool) (l : List (ℚ × ℚ)) (hl : ∀ p ∈ l, Close 3 p.1 p.2) :
    |pySum newer (l.map Prod.snd) - (l.map Prod.fst).sum| ≤
      ((1 + 3 * l.length * ulp) * (1 + ulp) ^ (l.length + 4) - 1) * (l.map (fun p => |p.1|)).sum := by
  have hA : 0 ≤ (l.map (fun p => |p.1|)).sum := List.sum_nonneg (by simp only [List.mem_map]; rintro x ⟨p, -, rfl⟩; exact abs_nonneg _)
  have hu := ulp_pos
  have hn : (0 : ℚ) ≤ 3 * l.length * ulp := by positivity
  have hg := one_le_pow_ulp (l.length + 3)
  have hS : |(l.map Prod.fst).sum| ≤ (l.map (fun p => |p.1|)).sum := by
    clear hl hA hn hg
    induction l with
    | nil => simp
    | cons p l ih =>
      simp only [List.map_cons, List.sum_cons]
      exact (abs_add_le _ _).trans (by linarith)
  have e : (1 + ulp) ^ (l.length + 4) = (1 + ulp) ^ (l.length + 3) * (1 + ulp) := pow_succ _ _
  rw [e]
  generalize hA' : (l.map (fun p => |p.1|)).sum = A at *
  generalize hE' : (l.map Prod.fst).sum = E at *
  have hbase : ∀ s, |s - E| ≤ ((1 + ulp) ^ (l.length + 3) - 1) * A →
      |s - E| ≤ ((1 + 3 * l.length * ulp) * ((1 + ulp) ^ (l.length + 3) * (1 + ulp)) - 1) * A := by
    intro s hs
    refine hs.trans (mul_le_mul_of_nonneg_right ?_ hA)
    have h1 : (1 + ulp) ^ (l.length + 3) ≤ (1 + ulp) ^ (l.length + 3) * (1 + ulp) := by nlinarith
    have h2 : (1 + ulp) ^ (l.length + 3) * (1 + ulp) ≤ (1 + 3 * l.length * ulp) * ((1 + ulp) ^ (l.length + 3) * (1 + ulp)) := by nlinarith
    linarith
  cases newer with
  | false =>
    have h := plain_fold l hl 0 0 0 0 (by simp) (by simp)
    simp only [hE', hA', zero_add] at h
    exact hbase _ h
  | true =>
    have h := compensated_fold l hl 0 0 0 0 0 (by simp) (by simp) (by simp)
    simp only [hE', hA', zero_add] at h
    show |compensatedSum _ - E| ≤ _
    unfold compensatedSum
    generalize (l.map Prod.snd).foldl compensate (0, 0) = sc at h
    obtain ⟨s, c⟩ := sc
    obtain ⟨h1, h2⟩ := h
    simp only at h1 h2 ⊢
    split
    · exact hbase _ h1
    · generalize (1 + ulp) ^ (l.length + 3) = g at *
      have h3 : |(s + c) - E| ≤ ((1 + 3 * l.length * ulp) * g - 1) * A := by
        have e1 : (s + c) - E = (s - E) + c := by ring
        rw [e1]
        have := abs_add_le (s - E) c
        linarith
      have h4 : |s + c| ≤ (1 + 3 * l.length * ulp) * g * A := by
        have : |s + c| ≤ |(s + c) - E| + |E| := by simpa using abs_add_le ((s + c) - E) E
        linarith
      have h5 := fl_err (s + c)
      have h6 : ulp * |s + c| ≤ ulp * ((1 + 3 * l.length * ulp) * g * A) := mul_le_mul_of_nonneg_left h4 hu.le
      have h7 : |fl (s + c) - E| ≤ |fl (s + c) - (s + c)| + |(s + c) - E| := by
        simpa using abs_add_le (fl (s + c) - (s + c)) ((s + c) - E)
      linarith

/-- The factor of the error, for sums that are not too long. -/
theorem error_factor {n : Nat} (h : (n + 4 : ℚ) * ulp ≤ 1 / 5) :
    (1 + 3 * n * ulp) * (1 + ulp) ^ (n + 4) - 1 ≤ 5 * (n + 1) * ulp := by
  have hu := ulp_pos
  have h1 : 1 - (n + 4 : ℚ) * ulp ≤ (1 - ulp) ^ (n + 4) := by
    have := one_add_mul_le_pow (a := -ulp) (by linarith [ulp_small]) (n + 4)
    push_cast at this
    rw [← sub_eq_add_neg] at this
    linarith
  have h2 : (1 + ulp) ^ (n + 4) * (1 - ulp) ^ (n + 4) ≤ 1 := by
    rw [← mul_pow]
    exact pow_le_one₀ (by nlinarith [ulp_small]) (by nlinarith)
  have h3 : (0 : ℚ) < (1 + ulp) ^ (n + 4) := by positivity
  have h4 : (1 + ulp) ^ (n + 4) * (1 - (n + 4 : ℚ) * ulp) ≤ 1 := (mul_le_mul_of_nonneg_left h1 h3.le).trans h2
  have hn : (0 : ℚ) ≤ n := Nat.cast_nonneg n
  have h5 : (1 + 3 * n * ulp) ≤ (1 + 5 * (n + 1) * ulp) * (1 - (n + 4 : ℚ) * ulp) := by
    have : 5 * (n + 1 : ℚ) * ulp * ((n + 4 : ℚ) * ulp) ≤ 5 * (n + 1 : ℚ) * ulp * (1 / 5) :=
      mul_le_mul_of_nonneg_left h (by positivity)
    nlinarith
  have h6 : (1 + 3 * n * ulp) * (1 + ulp) ^ (n + 4) ≤ (1 + 5 * (n + 1) * ulp) * (1 - (n + 4 : ℚ) * ulp) * (1 + ulp) ^ (n + 4) :=
    mul_le_mul_of_nonneg_right h5 h3.le
  have h7 : (1 + 5 * (n + 1 : ℚ) * ulp) * ((1 + ulp) ^ (n + 4) * (1 - (n + 4 : ℚ) * ulp)) ≤ (1 + 5 * (n + 1 : ℚ) * ulp) * 1 :=
    mul_le_mul_of_nonneg_left h4 (by positivity)
  linarith

end Splitgill
