import Verif.Proof.GeoFloat
/-!
# Lemmas on the winding check with floats: rings
-/

namespace Splitgill

/-- The exact and the rounded numbers that are summed up. -/
def edgePairs (r : List Coord) : List (ℚ × ℚ) :=
  (r.zip r.tail).map (fun e => ((e.2.x - e.1.x) * (e.2.y + e.1.y), edgeFl e.1 e.2))

theorem edgePairs_close (r : List Coord) : ∀ p ∈ edgePairs r, Close 3 p.1 p.2 := by
  intro p hp
  simp only [edgePairs, List.mem_map] at hp
  obtain ⟨e, -, rfl⟩ := hp
  exact edgeFl_close e.1 e.2

theorem edgePairs_cons (a b : Coord) (r : List Coord) :
    edgePairs (a :: b :: r) = ((b.x - a.x) * (b.y + a.y), edgeFl a b) :: edgePairs (b :: r) := rfl

theorem edgesFl_eq : ∀ {r : List Coord}, Planar r → edgesFl r = .ok ((edgePairs r).map Prod.snd)
  | [], _ => rfl
  | [_], _ => rfl
  | a :: b :: r, h => by
    have hb : Planar (b :: r) := fun c hc => h c (List.mem_cons_of_mem _ hc)
    rw [edgesFl, h a List.mem_cons_self, hb b List.mem_cons_self]
    dsimp only
    rw [edgesFl_eq hb]
    rfl

theorem edgeSum_pairs : ∀ {r : List Coord}, Planar r → edgeSum r = .ok ((edgePairs r).map Prod.fst).sum
  | [], _ => rfl
  | [_], _ => rfl
  | a :: b :: r, h => by
    have hb : Planar (b :: r) := fun c hc => h c (List.mem_cons_of_mem _ hc)
    rw [edgeSum, h a List.mem_cons_self, hb b List.mem_cons_self]
    dsimp only
    rw [edgeSum_pairs hb]
    rfl

theorem edgePairs_sum {r : List Coord} (hp : Planar r) (hc : ClosedRing r) : ((edgePairs r).map Prod.fst).sum = -2 * signedArea r := by
  have h := edgeSum_pairs hp
  rw [edgeSum_closed hp hc] at h
  exact (Except.ok.inj h).symm

theorem edgePairs_size (r : List Coord) : ((edgePairs r).map (fun p => |p.1|)).sum = edgeSize r := by
  simp only [edgePairs, edgeSize, List.map_map]
  congr 1
  refine List.map_congr_left fun e _ => ?_
  exact abs_mul _ _

theorem edgePairs_length (r : List Coord) : (edgePairs r).length = r.length - 1 := by simp [edgePairs]

theorem edgeSize_nonneg (r : List Coord) : 0 ≤ edgeSize r := by
  rw [← edgePairs_size]
  exact List.sum_nonneg (by simp only [List.mem_map]; rintro x ⟨p, -, rfl⟩; exact abs_nonneg _)

theorem abs_sum_le (l : List (ℚ × ℚ)) : |(l.map Prod.fst).sum| ≤ (l.map (fun p => |p.1|)).sum := by
  induction l with
  | nil => simp
  | cons p l ih =>
    simp only [List.map_cons, List.sum_cons]
    exact (abs_add_le _ _).trans (by linarith)

/-- In a clear ring the sum has the right sign. -/
theorem clear_sum (newer : Bool) {r : List Coord} (hp : Planar r) (hc : ClosedRing r) (h : ClearRing r) :
    ∃ l, edgesFl r = .ok l ∧ (pySum newer l < 0 ↔ 0 < signedArea r) ∧ (0 ≤ pySum newer l ↔ signedArea r < 0) := by
  refine ⟨_, edgesFl_eq hp, ?_⟩
  have h1 := pySum_error newer (edgePairs r) (edgePairs_close r)
  have h2 := abs_sum_le (edgePairs r)
  rw [edgePairs_sum hp hc, edgePairs_size] at h1 h2
  rw [edgePairs_length] at h1
  have h0 := edgeSize_nonneg r
  unfold ClearRing at h
  rw [abs_mul, abs_neg, abs_two] at h2
  have hr : 1 ≤ r.length := by
    cases r with
    | nil => simp [edgeSize, signedArea] at h
    | cons a r => simp
  have hn : ((r.length - 1 : ℕ) : ℚ) = r.length - 1 := by rw [Nat.cast_sub hr]; simp
  have hpos : 0 < edgeSize r := by
    rcases h0.eq_or_lt with h3 | h3
    · rw [← h3] at h h2
      linarith
    · exact h3
  have hlt : 6 * (r.length : ℚ) / 2 ^ 53 < 1 := by
    by_contra hcon
    have := mul_le_mul_of_nonneg_right (not_lt.1 hcon) h0
    linarith
  have hsmall : (r.length : ℚ) * ulp < 1 / 6 := by
    unfold ulp
    rw [div_lt_one (by positivity)] at hlt
    rw [mul_one_div, div_lt_iff₀ (by positivity)]
    linarith
  have hf := error_factor (n := r.length - 1) (by
    rw [hn]
    have : (3 : ℚ) * ulp ≤ 1 / 30 := by norm_num [ulp]
    linarith)
  have h3 := mul_le_mul_of_nonneg_right hf h0
  rw [hn] at h3 h1
  have h4 : 6 * (r.length : ℚ) / 2 ^ 53 = 6 * r.length * ulp := by unfold ulp; ring
  rw [h4] at h
  have h5 : 5 * ((r.length : ℚ) - 1 + 1) * ulp * edgeSize r ≤ 6 * r.length * ulp * edgeSize r := by
    refine mul_le_mul_of_nonneg_right ?_ h0
    have := ulp_pos
    have : (0 : ℚ) ≤ r.length * ulp := by positivity
    linarith
  have h6 : |pySum newer ((edgePairs r).map Prod.snd) - -2 * signedArea r| < 2 * |signedArea r| := by linarith
  rw [abs_lt] at h6
  obtain ⟨h7, h8⟩ := h6
  rcases lt_trichotomy (signedArea r) 0 with ha | ha | ha
  · rw [abs_of_neg ha] at h7 h8
    exact ⟨⟨fun _ => by linarith, fun _ => by linarith⟩, ⟨fun _ => ha, fun _ => by linarith⟩⟩
  · rw [ha, abs_zero] at h7 h8
    linarith
  · rw [abs_of_pos ha] at h7 h8
    exact ⟨⟨fun _ => ha, fun _ => by linarith⟩, ⟨fun _ => by linarith, fun _ => by linarith⟩⟩

theorem interiorsValidFl_eq (newer : Bool) : ∀ {is : List (List Coord)}, (∀ i ∈ is, Planar i ∧ ClosedRing i ∧ ClearRing i) →
    ∃ b, interiorsValidFl newer is = .ok b ∧ (b = true ↔ ∀ i ∈ is, signedArea i ≤ 0)
  | [], _ => ⟨true, rfl, by simp⟩
  | i :: r, h => by
    obtain ⟨hp, hc, hcl⟩ := h i List.mem_cons_self
    obtain ⟨l, hl, hs, -⟩ := clear_sum newer hp hc hcl
    rw [interiorsValidFl, hl]
    dsimp only
    split
    · rename_i h1
      refine ⟨false, rfl, ?_⟩
      constructor
      · intro h; cases h
      · intro hall
        have := hall i List.mem_cons_self
        have := hs.1 h1
        linarith
    · rename_i h1
      obtain ⟨b, h2, h3⟩ := interiorsValidFl_eq newer (fun j hj => h j (List.mem_cons_of_mem _ hj))
      refine ⟨b, h2, h3.trans ?_⟩
      constructor
      · intro hall j hj
        rcases List.mem_cons.1 hj with rfl | hj
        · exact not_lt.1 (fun h => h1 (hs.2 h))
        · exact hall j hj
      · intro hall j hj
        exact hall j (List.mem_cons_of_mem _ hj)

theorem isWindingValidFl_eq (newer : Bool) {e : List Coord} {is : List (List Coord)} (he : Planar e ∧ ClosedRing e ∧ ClearRing e)
    (hi : ∀ i ∈ is, Planar i ∧ ClosedRing i ∧ ClearRing i) :
    ∃ b, isWindingValidFl newer e is = .ok b ∧ (b = true ↔ RightHand e is) := by
  obtain ⟨l, hl, h1, h2⟩ := clear_sum newer he.1 he.2.1 he.2.2
  unfold isWindingValidFl
  rw [hl]
  dsimp only
  split
  · rename_i hs
    refine ⟨false, rfl, ?_⟩
    constructor
    · intro h; cases h
    · intro h
      have := h.1
      have := h2.1 hs
      linarith
  · rename_i hs
    obtain ⟨b, h3, h4⟩ := interiorsValidFl_eq newer hi
    refine ⟨b, h3, h4.trans ?_⟩
    constructor
    · intro h; exact ⟨h1.1 (not_le.1 hs), h⟩
    · intro h; exact h.2

/-! ## Grids -/

/-- A multiple of `1 / 2 ^ K` that is at most `L / 2 ^ K`. -/
def OnGrid (K L : Nat) (x : ℚ) : Prop := ∃ m : ℤ, x = m / 2 ^ K ∧ |m| ≤ L

theorem OnGrid.fl {K L : Nat} {x : ℚ} (h : OnGrid K L x) (hL : L < 2 ^ 53) : fl x = x := by
  obtain ⟨m, rfl, hm⟩ := h
  refine fl_double ⟨m, -(K : ℤ), lt_of_le_of_lt hm (by exact_mod_cast hL), ?_⟩
  rw [zpow_neg, zpow_natCast, div_eq_mul_inv]

theorem OnGrid.add {K L L' : Nat} {x y : ℚ} (h : OnGrid K L x) (h' : OnGrid K L' y) : OnGrid K (L + L') (x + y) := by
  obtain ⟨m, rfl, hm⟩ := h
  obtain ⟨m', rfl, hm'⟩ := h'
  refine ⟨m + m', by push_cast; ring, ?_⟩
  have := abs_add_le m m'
  push_cast
  linarith

theorem OnGrid.neg {K L : Nat} {x : ℚ} (h : OnGrid K L x) : OnGrid K L (-x) := by
  obtain ⟨m, rfl, hm⟩ := h
  exact ⟨-m, by push_cast; ring, by rwa [abs_neg]⟩

theorem OnGrid.mul {K K' L L' : Nat} {x y : ℚ} (h : OnGrid K L x) (h' : OnGrid K' L' y) : OnGrid (K + K') (L * L') (x * y) := by
  obtain ⟨m, rfl, hm⟩ := h
  obtain ⟨m', rfl, hm'⟩ := h'
  refine ⟨m * m', by push_cast; rw [pow_add, div_mul_div_comm], ?_⟩
  rw [abs_mul]
  push_cast
  exact mul_le_mul hm hm' (abs_nonneg _) (by positivity)

theorem OnGrid.mono {K L L' : Nat} {x : ℚ} (h : OnGrid K L x) (hl : L ≤ L') : OnGrid K L' x := by
  obtain ⟨m, rfl, hm⟩ := h
  exact ⟨m, rfl, hm.trans (by exact_mod_cast hl)⟩

theorem plain_grid {K L : Nat} : ∀ (l : List ℚ) (s : ℚ) (k : Nat), (∀ x ∈ l, OnGrid K L x) → OnGrid K (k * L) s →
    (k + l.length) * L < 2 ^ 53 → l.foldl (fun s x => fl (s + x)) s = s + l.sum
  | [], s, k, _, _, _ => by simp
  | x :: l, s, k, hl, hs, hk => by
    have h1 : OnGrid K ((k + 1) * L) (s + x) := (hs.add (hl x List.mem_cons_self)).mono (by rw [Nat.add_mul]; omega)
    simp only [List.length_cons] at hk
    have h2 : fl (s + x) = s + x := h1.fl (lt_of_le_of_lt (Nat.mul_le_mul_right _ (by omega)) hk)
    rw [List.foldl_cons, h2, plain_grid l (s + x) (k + 1) (fun y hy => hl y (List.mem_cons_of_mem _ hy)) h1
      (by rwa [show k + 1 + l.length = k + (l.length + 1) by omega]), List.sum_cons, add_assoc]

theorem compensated_grid {K L : Nat} : ∀ (l : List ℚ) (s : ℚ) (k : Nat), (∀ x ∈ l, OnGrid K L x) → OnGrid K (k * L) s →
    (k + l.length) * L < 2 ^ 53 → l.foldl compensate (s, 0) = (s + l.sum, 0)
  | [], s, k, _, _, _ => by simp
  | x :: l, s, k, hl, hs, hk => by
    have hx := hl x List.mem_cons_self
    have h1 : OnGrid K ((k + 1) * L) (s + x) := (hs.add hx).mono (by rw [Nat.add_mul]; omega)
    simp only [List.length_cons] at hk
    have hb : (k + 1) * L < 2 ^ 53 := lt_of_le_of_lt (Nat.mul_le_mul_right _ (by omega)) hk
    have h2 : fl (s + x) = s + x := h1.fl hb
    have h3 : fl x = x := hx.fl (lt_of_le_of_lt (by rw [Nat.add_mul]; omega) hb)
    have h4 : fl s = s := hs.fl (lt_of_le_of_lt (Nat.mul_le_mul_right _ (by omega)) hb)
    have h5 : compensate (s, 0) x = (s + x, 0) := by
      simp only [compensate, h2]
      rw [show s - (s + x) = -x by ring, show x - (s + x) = -s by ring, fl_neg, fl_neg, h3, h4]
      simp [fl]
    rw [List.foldl_cons, h5, compensated_grid l (s + x) (k + 1) (fun y hy => hl y (List.mem_cons_of_mem _ hy)) h1
      (by rwa [show k + 1 + l.length = k + (l.length + 1) by omega]), List.sum_cons, add_assoc]

theorem pySum_grid (newer : Bool) {K L : Nat} {l : List ℚ} (hl : ∀ x ∈ l, OnGrid K L x) (hk : l.length * L < 2 ^ 53) :
    pySum newer l = l.sum := by
  have h0 : OnGrid K (0 * L) 0 := ⟨0, by simp, by simp⟩
  cases newer with
  | false =>
    have := plain_grid l 0 0 hl h0 (by simpa using hk)
    rw [zero_add] at this
    exact this
  | true =>
    have := compensated_grid l 0 0 hl h0 (by simpa using hk)
    show compensatedSum l = _
    unfold compensatedSum
    rw [this]
    simp

/-- A coordinate of a grid. -/
theorem coord_grid {k : Nat} {L : Nat} {x : ℚ} {a : ℤ} (h : x = a / 2 ^ k) (hx : -(L : ℚ) ≤ x ∧ x ≤ L) : OnGrid k (L * 2 ^ k) x := by
  refine ⟨a, h, ?_⟩
  have hp : (0 : ℚ) < 2 ^ k := by positivity
  rw [h, le_div_iff₀ hp, div_le_iff₀ hp] at hx
  rw [abs_le]
  constructor
  · have : (-(L * 2 ^ k : ℕ) : ℚ) ≤ a := by push_cast; linarith
    exact_mod_cast this
  · have : (a : ℚ) ≤ (L * 2 ^ k : ℕ) := by push_cast; linarith
    exact_mod_cast this

theorem edge_grid {k : Nat} {a b : Coord} (ha : a.OnMap ∧ ∃ m n : ℤ, a.x = m / 2 ^ k ∧ a.y = n / 2 ^ k)
    (hb : b.OnMap ∧ ∃ m n : ℤ, b.x = m / 2 ^ k ∧ b.y = n / 2 ^ k) (hk : 2 ^ (16 + 2 * k) < 2 ^ 53) :
    edgeFl a b = (b.x - a.x) * (b.y + a.y) ∧ OnGrid (k + k) (2 ^ (16 + 2 * k)) ((b.x - a.x) * (b.y + a.y)) := by
  obtain ⟨⟨a1, a2⟩, m, n, ea, ea'⟩ := ha
  obtain ⟨⟨b1, b2⟩, m', n', eb, eb'⟩ := hb
  have hax : OnGrid k (180 * 2 ^ k) a.x := coord_grid ea (by push_cast; exact a1)
  have hbx : OnGrid k (180 * 2 ^ k) b.x := coord_grid eb (by push_cast; exact b1)
  have hay : OnGrid k (90 * 2 ^ k) a.y := coord_grid ea' (by push_cast; exact a2)
  have hby : OnGrid k (90 * 2 ^ k) b.y := coord_grid eb' (by push_cast; exact b2)
  have e : 2 ^ (16 + 2 * k) = 65536 * (2 ^ k * 2 ^ k) := by rw [pow_add, two_mul, pow_add]; norm_num
  have hp : 1 ≤ 2 ^ k := Nat.one_le_two_pow
  have hpp : 2 ^ k ≤ 2 ^ k * 2 ^ k := Nat.le_mul_of_pos_right _ hp
  have hdx : OnGrid k (360 * 2 ^ k) (b.x - a.x) := by
    rw [sub_eq_add_neg]
    exact (hbx.add hax.neg).mono (by omega)
  have hsy : OnGrid k (180 * 2 ^ k) (b.y + a.y) := (hby.add hay).mono (by omega)
  have hm : OnGrid (k + k) (2 ^ (16 + 2 * k)) ((b.x - a.x) * (b.y + a.y)) := by
    refine (hdx.mul hsy).mono ?_
    rw [e, Nat.mul_mul_mul_comm]
    exact Nat.mul_le_mul_right _ (by norm_num)
  refine ⟨?_, hm⟩
  unfold edgeFl
  rw [hdx.fl (by omega), hsy.fl (by omega), hm.fl hk]

theorem pairs_grid {k : Nat} : ∀ {r : List Coord},
    (∀ c ∈ r, c.OnMap ∧ ∃ a b : ℤ, c.x = a / 2 ^ k ∧ c.y = b / 2 ^ k) → 2 ^ (16 + 2 * k) < 2 ^ 53 →
    ∀ p ∈ edgePairs r, p.2 = p.1 ∧ OnGrid (k + k) (2 ^ (16 + 2 * k)) p.1
  | [], _, _ => by intro p hp; cases hp
  | [_], _, _ => by intro p hp; cases hp
  | a :: b :: r, h, hk => by
    intro p hp
    rw [edgePairs_cons] at hp
    rcases List.mem_cons.1 hp with rfl | hp
    · exact edge_grid (h a List.mem_cons_self) (h b (List.mem_cons_of_mem _ List.mem_cons_self)) hk
    · exact pairs_grid (fun c hc => h c (List.mem_cons_of_mem _ hc)) hk p hp

theorem grid_sum (newer : Bool) {k : Nat} {r : List Coord} (h : GridRing k r) :
    pySum newer ((edgePairs r).map Prod.snd) = ((edgePairs r).map Prod.fst).sum := by
  cases r with
  | nil => cases newer <;> simp [edgePairs, pySum, plainSum, compensatedSum]
  | cons a r =>
    have hb := h.2
    have hk : 2 ^ (16 + 2 * k) < 2 ^ 53 := lt_of_le_of_lt (Nat.le_mul_of_pos_right _ (by simp)) hb
    have hp := pairs_grid h.1 hk
    have e : (edgePairs (a :: r)).map Prod.snd = (edgePairs (a :: r)).map Prod.fst :=
      List.map_congr_left fun p hp' => (hp p hp').1
    rw [e]
    refine pySum_grid newer (K := k + k) (L := 2 ^ (16 + 2 * k)) ?_ ?_
    · intro x hx
      obtain ⟨p, hp', rfl⟩ := List.mem_map.1 hx
      exact (hp p hp').2
    · rw [List.length_map, edgePairs_length, Nat.mul_comm]
      exact lt_of_le_of_lt (Nat.mul_le_mul_left _ (by omega)) hb

theorem interiorsValidFl_grid (newer : Bool) {k : Nat} : ∀ {is : List (List Coord)}, (∀ i ∈ is, Planar i ∧ GridRing k i) →
    interiorsValidFl newer is = interiorsValid is
  | [], _ => rfl
  | i :: r, h => by
    obtain ⟨hp, hg⟩ := h i List.mem_cons_self
    rw [interiorsValidFl, interiorsValid, edgesFl_eq hp, edgeSum_pairs hp]
    dsimp only
    rw [grid_sum newer hg, interiorsValidFl_grid newer (fun j hj => h j (List.mem_cons_of_mem _ hj))]

theorem isWindingValidFl_grid (newer : Bool) {k : Nat} {e : List Coord} {is : List (List Coord)} (he : Planar e ∧ GridRing k e)
    (hi : ∀ i ∈ is, Planar i ∧ GridRing k i) : isWindingValidFl newer e is = isWindingValid e is := by
  unfold isWindingValidFl isWindingValid
  rw [edgesFl_eq he.1, edgeSum_pairs he.1]
  dsimp only
  rw [grid_sum newer he.2, interiorsValidFl_grid newer hi]

end Splitgill
