import Verif.Proof.DateReads
/-!
# Lemmas: texts of formats in which it is clear where numbers end are read
-/

namespace Splitgill

/-- The text goes on, if at all, with something else than a digit. -/
def NoDigit (r : PyStr) : Prop := ∀ x r', r = x :: r' → isDig x = false

/-- The text cannot go on with the directive. -/
def Dir.StopsAt : Dir → PyStr → Prop
  | .Y, _ => True
  | .lit _, _ => True
  | .z, r => ∀ x r', r = x :: r' → isDig x = false ∧ x ≠ ':' ∧ x ≠ '.'
  | _, r => NoDigit r

theorem digit_codes : '0'.toNat = 48 ∧ '1'.toNat = 49 ∧ '2'.toNat = 50 ∧ '3'.toNat = 51 ∧ '5'.toNat = 53 ∧ '6'.toNat = 54 ∧ '9'.toNat = 57 ∧
    ' '.toNat = 32 := by decide

theorem two_yes {p q : Char → Bool} {a b : Char} {r : PyStr} (ha : p a = true) (hb : q b = true) :
    two p q (a :: b :: r) = [(10 * (a.toNat - 48) + (b.toNat - 48), r)] := by
  unfold two
  dsimp only
  rw [ha, hb]
  rfl

theorem two_no {p q : Char → Bool} {a b : Char} {r : PyStr} (h : p a = true → q b = true → False) : two p q (a :: b :: r) = [] := by
  unfold two
  dsimp only
  rw [if_neg]
  rw [Bool.and_eq_true]
  exact fun e => h e.1 e.2

theorem two_short {p q : Char → Bool} (hq : ∀ c, q c = true → isDig c = true) {a : Char} {r : PyStr} (hr : NoDigit r) : two p q (a :: r) = [] := by
  cases r with
  | nil => rfl
  | cons b r =>
    refine two_no (fun _ e => ?_)
    have := hr b r rfl
    rw [hq b e] at this
    cases this

theorem one_yes {p : Char → Bool} {a : Char} {r : PyStr} (ha : p a = true) : one p (a :: r) = [(a.toNat - 48, r)] := by
  unfold one
  dsimp only
  rw [ha]
  rfl

theorem inRange_dig {a b : Char} (h1 : 48 ≤ a.toNat) (h2 : b.toNat ≤ 57) : ∀ c, inRange a b c = true → isDig c = true := by
  intro c h
  rw [dateRange_iff] at h
  rw [isDig_iff]
  omega

theorem ShortNumber.cases {w : PyStr} {n : Nat} (h : ShortNumber w n) :
    (∃ a, w = [a] ∧ (48 ≤ a.toNat ∧ a.toNat ≤ 57) ∧ n = a.toNat - 48) ∨
      ∃ a b, w = [a, b] ∧ (48 ≤ a.toNat ∧ a.toNat ≤ 57) ∧ (48 ≤ b.toNat ∧ b.toNat ≤ 57) ∧ n = 10 * (a.toNat - 48) + (b.toNat - 48) := by
  obtain ⟨h1, h2, h3⟩ := h
  rcases h2 with h2 | h2
  · obtain ⟨a, rfl⟩ := List.length_eq_one_iff.1 h2
    exact .inl ⟨a, rfl, allDigits_one.1 h1, by rw [← h3, decimal_one]⟩
  · obtain ⟨a, b, rfl⟩ := List.length_eq_two.1 h2
    obtain ⟨g1, g2⟩ := allDigits_cons.1 h1
    exact .inr ⟨a, b, rfl, g1, allDigits_one.1 g2, by rw [← h3, decimal_two]⟩

theorem fraction_first : ∀ (w : PyStr) (n acc scale : Nat) (r : PyStr), AllDigits w → 1 ≤ w.length → w.length ≤ n → NoDigit r →
    ∃ o, fraction n acc scale (w ++ r) =
      ((w.foldl (fun n c => 10 * n + (c.toNat - '0'.toNat)) acc) * (scale / 10 ^ w.length), r) :: o
  | [], _, _, _, _, _, h, _, _ => nomatch h
  | c :: w, 0, _, _, _, _, _, h, _ => nomatch h
  | c :: w, n + 1, acc, scale, r, hd, _, hl, hr => by
    obtain ⟨hc, hw⟩ := allDigits_cons.1 hd
    rw [List.cons_append, fraction, if_pos (isDig_iff.2 hc)]
    dsimp only
    cases w with
    | nil =>
      have : fraction n (10 * acc + digitVal c) (scale / 10) r = [] := by
        cases n with
        | zero => rw [fraction]
        | succ n =>
          cases r with
          | nil => rw [fraction]
          | cons x r => rw [fraction, hr x r rfl]; rfl
      rw [List.nil_append, this]
      refine ⟨[], ?_⟩
      rw [List.length_singleton, pow_one]
      rfl
    | cons c' w' =>
      obtain ⟨o, e⟩ := fraction_first (c' :: w') n (10 * acc + digitVal c) (scale / 10) r hw (by simp) (by simpa using hl) hr
      rw [e]
      refine ⟨o ++ [((10 * acc + digitVal c) * (scale / 10), c' :: w' ++ r)], ?_⟩
      rw [List.cons_append]
      congr 2
      rw [List.length_cons (a := c), pow_succ' 10, ← Nat.div_div_eq_div_mul]
      rfl

theorem millionths_first {w : PyStr} {n : Nat} (h : Millionths w n) {r : PyStr} (hr : NoDigit r) : ∃ o, fraction 6 0 1000000 (w ++ r) = (n, r) :: o := by
  obtain ⟨h1, h2, h3, rfl⟩ := h
  obtain ⟨o, e⟩ := fraction_first w 6 0 1000000 r h1 h2 h3 hr
  refine ⟨o, e.trans ?_⟩
  have : ∀ n, 1 ≤ n → n ≤ 6 → 1000000 / 10 ^ n = 10 ^ (6 - n) := by
    intro n h1 h2
    have : n = 1 ∨ n = 2 ∨ n = 3 ∨ n = 4 ∨ n = 5 ∨ n = 6 := by omega
    rcases this with rfl | rfl | rfl | rfl | rfl | rfl <;> rfl
  rw [this _ h2 h3]
  rfl

theorem pair_first {w : PyStr} (h1 : AllDigits w) (h2 : w.length = 2) (r : PyStr) : two isDig isDig (w ++ r) = [(decimal w, r)] := by
  obtain ⟨a, b, rfl⟩ := List.length_eq_two.1 h2
  obtain ⟨g1, g2⟩ := allDigits_cons.1 h1
  rw [decimal_two]
  exact two_yes (isDig_iff.2 g1) (isDig_iff.2 (allDigits_one.1 g2))

theorem sixty_first {w : PyStr} (h1 : AllDigits w) (h2 : w.length = 2) (h3 : decimal w < 60) (r : PyStr) :
    two (inRange '0' '5') isDig (w ++ r) = [(decimal w, r)] := by
  obtain ⟨a, b, rfl⟩ := List.length_eq_two.1 h2
  obtain ⟨g1, g2⟩ := allDigits_cons.1 h1
  rw [decimal_two] at h3 ⊢
  have := digit_codes
  exact two_yes (dateRange_iff.2 (by omega)) (isDig_iff.2 (allDigits_one.1 g2))

theorem sixty_colon (r : PyStr) : two (inRange '0' '5') isDig (':' :: r) = [] := by
  cases r with
  | nil => rfl
  | cons b r => exact two_no (fun h _ => absurd h (by decide))

theorem dig_colon {w : PyStr} (h1 : AllDigits w) (h2 : w.length = 2) (r : PyStr) : optColon (w ++ r) = [(false, w ++ r)] := by
  obtain ⟨a, b, rfl⟩ := List.length_eq_two.1 h2
  obtain ⟨g1, _⟩ := allDigits_cons.1 h1
  have : a ≠ ':' := by rintro rfl; revert g1; decide
  show optColon (a :: (b :: r)) = _
  unfold optColon
  split
  · rename_i e; cases e; exact absurd rfl this
  · rfl

theorem colon_sixty {colon w : PyStr} (hc : colon = [] ∨ colon = [':']) (h1 : AllDigits w) (h2 : w.length = 2) (h3 : decimal w < 60) (r : PyStr)
    {α : Type} (g : Bool → Nat × PyStr → List α) :
    (optColon (colon ++ (w ++ r))).flatMap (fun c => (two (inRange '0' '5') isDig c.2).flatMap (g c.1)) =
      g (decide (colon = [':'])) (decimal w, r) := by
  rcases hc with rfl | rfl
  · rw [List.nil_append, dig_colon h1 h2, List.flatMap_singleton, sixty_first h1 h2 h3, List.flatMap_singleton]
    rfl
  · show ([(true, w ++ r), (false, ':' :: (w ++ r))] : List (Bool × PyStr)).flatMap _ = _
    rw [List.flatMap_cons, List.flatMap_singleton, sixty_first h1 h2 h3, List.flatMap_singleton, sixty_colon]
    simp

theorem stop_sixty {r : PyStr} (h : ∀ x r', r = x :: r' → isDig x = false ∧ x ≠ ':' ∧ x ≠ '.') {α : Type} (g : Bool → Nat × PyStr → List α) :
    (optColon r).flatMap (fun c => (two (inRange '0' '5') isDig c.2).flatMap (g c.1)) = [] := by
  cases r with
  | nil => rfl
  | cons x r =>
    have e : optColon (x :: r) = [(false, x :: r)] := by
      unfold optColon
      split
      · rename_i e; cases e; exact absurd rfl (h _ _ rfl).2.1
      · rfl
    rw [e, List.flatMap_singleton]
    have e2 : two (inRange '0' '5') isDig (x :: r) = [] := by
      cases r with
      | nil => rfl
      | cons y r =>
        refine two_no (fun hx _ => ?_)
        have := inRange_dig (by decide) (by decide) x hx
        rw [(h _ _ rfl).1] at this
        cases this
    rw [e2]
    rfl

/-- What `zoneTail` reads after the seconds. -/
def zoneSeconds (h m : Nat) (c1 c2 : Bool) (se : Nat × PyStr) : List (Option Nat × PyStr) :=
  (match se.2 with
    | '.' :: r => (fraction 6 0 1000000 r).map (fun fr => (if c1 = c2 then some ((h * 3600 + m * 60 + se.1) * 1000000 + fr.1) else none, fr.2))
    | _ => []) ++ [(if c1 = c2 then some ((h * 3600 + m * 60 + se.1) * 1000000) else none, se.2)]

/-- What `zoneTail` reads after the minutes. -/
def zoneMinutes (h : Nat) (c1 : Bool) (mi : Nat × PyStr) : List (Option Nat × PyStr) :=
  ((optColon mi.2).flatMap fun c2 => (two (inRange '0' '5') isDig c2.2).flatMap (zoneSeconds h mi.1 c1 c2.1)) ++
    [(some ((h * 3600 + mi.1 * 60) * 1000000), mi.2)]

theorem zoneTail_eq (s : PyStr) : zoneTail s =
    (two isDig isDig s).flatMap fun h => (optColon h.2).flatMap fun c1 => (two (inRange '0' '5') isDig c1.2).flatMap (zoneMinutes h.1 c1.1) := rfl

theorem zone_start {h m colon : PyStr} (a1 : AllDigits h) (a2 : h.length = 2) (b1 : AllDigits m) (b2 : m.length = 2) (b3 : decimal m < 60)
    (hc : colon = [] ∨ colon = [':']) (r : PyStr) :
    zoneTail (h ++ (colon ++ (m ++ r))) = zoneMinutes (decimal h) (decide (colon = [':'])) (decimal m, r) := by
  rw [zoneTail_eq, pair_first a1 a2, List.flatMap_singleton]
  exact colon_sixty hc b1 b2 b3 r _

theorem zone_minutes {s colon : PyStr} (h m : Nat) (d1 : AllDigits s) (d2 : s.length = 2) (d3 : decimal s < 60) (hc : colon = [] ∨ colon = [':'])
    (r : PyStr) (b : Bool) : ∃ o, zoneMinutes h b (m, colon ++ (s ++ r)) = zoneSeconds h m b (decide (colon = [':'])) (decimal s, r) ++ o := by
  unfold zoneMinutes
  rw [colon_sixty hc d1 d2 d3 r _]
  exact ⟨_, rfl⟩

theorem zone_first {w : PyStr} {n : Nat} (h : Offset w n) {r : PyStr} (hr : ∀ x r', r = x :: r' → isDig x = false ∧ x ≠ ':' ∧ x ≠ '.') :
    ∃ o, zoneTail (w ++ r) = (some n, r) :: o := by
  have hn : NoDigit r := fun x r' e => (hr x r' e).1
  cases h with
  | minutes h m colon a1 a2 b1 b2 b3 hc =>
    rw [List.append_assoc, List.append_assoc, zone_start a1 a2 b1 b2 b3 hc]
    unfold zoneMinutes
    rw [stop_sixty hr]
    exact ⟨[], rfl⟩
  | seconds h m s colon a1 a2 b1 b2 b3 d1 d2 d3 hc =>
    have e : h ++ (colon ++ (m ++ (colon ++ s))) ++ r = h ++ (colon ++ (m ++ (colon ++ (s ++ r)))) := by simp
    rw [e, zone_start a1 a2 b1 b2 b3 hc]
    obtain ⟨o, e⟩ := zone_minutes (decimal h) (decimal m) d1 d2 d3 hc r (decide (colon = [':']))
    rw [e]
    unfold zoneSeconds
    rw [if_pos rfl]
    have e2 : (match r with
      | '.' :: r => (fraction 6 0 1000000 r).map (fun fr =>
        (if decide (colon = [':']) = decide (colon = [':']) then some ((decimal h * 3600 + decimal m * 60 + decimal s) * 1000000 + fr.1) else none, fr.2))
      | _ => []) = [] := by
      split
      · exact absurd rfl (hr _ _ rfl).2.2
      · rfl
    exact ⟨o, congrArg (fun x => x ++ _ ++ o) e2⟩
  | fraction h m s colon f k a1 a2 b1 b2 b3 d1 d2 d3 hc hf =>
    have e : h ++ (colon ++ (m ++ (colon ++ (s ++ '.' :: f)))) ++ r = h ++ (colon ++ (m ++ (colon ++ (s ++ ('.' :: (f ++ r)))))) := by simp
    rw [e, zone_start a1 a2 b1 b2 b3 hc]
    obtain ⟨o, e⟩ := zone_minutes (decimal h) (decimal m) d1 d2 d3 hc ('.' :: (f ++ r)) (decide (colon = [':']))
    rw [e]
    unfold zoneSeconds
    obtain ⟨o', e'⟩ := millionths_first hf hn
    show ∃ o_1, (fraction 6 0 1000000 (f ++ r)).map (fun fr => (if decide (colon = [':']) = decide (colon = [':']) then
      some ((decimal h * 3600 + decimal m * 60 + decimal s) * 1000000 + fr.1) else none, fr.2)) ++ _ ++ o = _
    rw [e', List.map_cons, if_pos rfl]
    exact ⟨_, rfl⟩

/-! ## Directives -/

theorem reads_complete {d : Dir} {w : PyStr} {t t' : DateTime} (h : Piece d w t t') {r : PyStr} (hr : d.StopsAt r) :
    ∃ u o, d.reads (w ++ r) = (u, r) :: o ∧ u t = some t' := by
  have hc := digit_codes
  have map_first : ∀ {l : List (Nat × PyStr)} {n : Nat} (f : Nat → DateTime → Option DateTime), (∃ o, l = (n, r) :: o) →
      ∃ u o, l.map (fun v => (f v.1, v.2)) = (u, r) :: o ∧ u t = f n t := by
    rintro l n f ⟨o, rfl⟩
    exact ⟨_, _, rfl, rfl⟩
  cases h with
  | lit c x _ hx =>
    refine ⟨some, [], ?_, rfl⟩
    show (if x.toLower = c.toLower then _ else _) = _
    rw [if_pos hx]
    rfl
  | Y _ _ h1 h2 =>
    refine map_first (fun n t => some { t with year := n }) ⟨[], ?_⟩
    match w, h2 with
    | [a, b, c, d], _ =>
      simp only [allDigits_cons, ← isDig_iff] at h1
      show (if isDig a && isDig b && isDig c && isDig d then _ else _) = _
      rw [if_pos (by rw [h1.1, h1.2.1, h1.2.2.1, h1.2.2.2.1]; rfl)]
      refine congrArg (fun x => [(x, r)]) ?_
      show 1000 * (a.toNat - 48) + 100 * (b.toNat - 48) + 10 * (c.toNat - 48) + (d.toNat - 48) =
        10 * (10 * (10 * (10 * 0 + (a.toNat - 48)) + (b.toNat - 48)) + (c.toNat - 48)) + (d.toNat - 48)
      omega
  | m _ n _ h1 h2 h3 =>
    refine map_first (fun n t => some { t with month := n }) ?_
    rcases h1.cases with ⟨a, rfl, g1, rfl⟩ | ⟨a, b, rfl, g1, g2, rfl⟩
    · show ∃ o, two _ _ (a :: r) ++ two _ _ (a :: r) ++ one _ (a :: r) = _
      rw [two_short (inRange_dig (by decide) (by decide)) hr, two_short (inRange_dig (by decide) (by decide)) hr,
        one_yes (dateRange_iff.2 (by omega))]
      exact ⟨[], rfl⟩
    · show ∃ o, two _ _ (a :: b :: r) ++ two _ _ (a :: b :: r) ++ one _ (a :: b :: r) = _
      by_cases ha : a.toNat = 49
      · rw [two_yes (dateRange_iff.2 (by omega)) (dateRange_iff.2 (by omega))]
        exact ⟨_, rfl⟩
      · rw [two_no (fun x _ => by rw [dateRange_iff] at x; omega), two_yes (dateRange_iff.2 (by omega)) (dateRange_iff.2 (by omega))]
        exact ⟨_, rfl⟩
  | d _ n _ h1 h2 h3 =>
    refine map_first (fun n t => some { t with day := n }) ?_
    rcases h1.cases with ⟨a, rfl, g1, rfl⟩ | ⟨a, b, rfl, g1, g2, rfl⟩
    · show ∃ o, two _ _ (a :: r) ++ two _ _ (a :: r) ++ two _ _ (a :: r) ++ one _ (a :: r) ++ two _ _ (a :: r) = _
      rw [two_short (inRange_dig (by decide) (by decide)) hr, two_short (fun _ h => h) hr, two_short (inRange_dig (by decide) (by decide)) hr,
        one_yes (dateRange_iff.2 (by omega))]
      exact ⟨_, rfl⟩
    · show ∃ o, two _ _ (a :: b :: r) ++ two _ _ (a :: b :: r) ++ two _ _ (a :: b :: r) ++ one _ (a :: b :: r) ++ two _ _ (a :: b :: r) = _
      by_cases ha : a.toNat = 51
      · rw [two_yes (dateRange_iff.2 (by omega)) (dateRange_iff.2 (by omega))]
        exact ⟨_, rfl⟩
      · rw [two_no (p := inRange '3' '3') (fun x _ => by rw [dateRange_iff] at x; omega)]
        by_cases hb : a.toNat = 48
        · rw [two_no (p := inRange '1' '2') (fun x _ => by rw [dateRange_iff] at x; omega),
            two_yes (p := inRange '0' '0') (dateRange_iff.2 (by omega)) (dateRange_iff.2 (by omega))]
          exact ⟨_, rfl⟩
        · rw [two_yes (p := inRange '1' '2') (dateRange_iff.2 (by omega)) (isDig_iff.2 (by omega))]
          exact ⟨_, rfl⟩
  | dSpace b _ h1 h2 =>
    refine map_first (fun n t => some { t with day := n }) ?_
    rw [decimal_one] at h2 ⊢
    have h1 := allDigits_one.1 h1
    show ∃ o, two _ _ (' ' :: b :: r) ++ two _ _ (' ' :: b :: r) ++ two _ _ (' ' :: b :: r) ++ one _ (' ' :: b :: r) ++ two _ _ (' ' :: b :: r) = _
    rw [two_no (p := inRange '3' '3') (fun x _ => absurd x (by decide)), two_no (p := inRange '1' '2') (fun x _ => absurd x (by decide)),
      two_no (p := inRange '0' '0') (fun x _ => absurd x (by decide)),
      two_yes (p := inRange ' ' ' ') (by decide) (dateRange_iff.2 (by omega))]
    refine ⟨[], ?_⟩
    show [(10 * (' '.toNat - 48) + (b.toNat - 48), r)] = _
    rw [hc.2.2.2.2.2.2.2]
    congr 2
    omega
  | H _ n _ h1 h2 =>
    refine map_first (fun n t => some { t with hour := n }) ?_
    rcases h1.cases with ⟨a, rfl, g1, rfl⟩ | ⟨a, b, rfl, g1, g2, rfl⟩
    · show ∃ o, two _ _ (a :: r) ++ two _ _ (a :: r) ++ one _ (a :: r) = _
      rw [two_short (inRange_dig (by decide) (by decide)) hr, two_short (fun _ h => h) hr, one_yes (isDig_iff.2 (by omega))]
      exact ⟨[], rfl⟩
    · show ∃ o, two _ _ (a :: b :: r) ++ two _ _ (a :: b :: r) ++ one _ (a :: b :: r) = _
      by_cases ha : a.toNat = 50
      · rw [two_yes (dateRange_iff.2 (by omega)) (dateRange_iff.2 (by omega))]
        exact ⟨_, rfl⟩
      · rw [two_no (p := inRange '2' '2') (fun x _ => by rw [dateRange_iff] at x; omega), two_yes (dateRange_iff.2 (by omega)) (isDig_iff.2 (by omega))]
        exact ⟨_, rfl⟩
  | M _ n _ h1 h2 =>
    refine map_first (fun n t => some { t with minute := n }) ?_
    rcases h1.cases with ⟨a, rfl, g1, rfl⟩ | ⟨a, b, rfl, g1, g2, rfl⟩
    · show ∃ o, two _ _ (a :: r) ++ one _ (a :: r) = _
      rw [two_short (fun _ h => h) hr, one_yes (isDig_iff.2 (by omega))]
      exact ⟨[], rfl⟩
    · show ∃ o, two _ _ (a :: b :: r) ++ one _ (a :: b :: r) = _
      rw [two_yes (dateRange_iff.2 (by omega)) (isDig_iff.2 (by omega))]
      exact ⟨_, rfl⟩
  | S _ n _ h1 h2 =>
    refine map_first (fun n t => some { t with second := n }) ?_
    rcases h1.cases with ⟨a, rfl, g1, rfl⟩ | ⟨a, b, rfl, g1, g2, rfl⟩
    · show ∃ o, two _ _ (a :: r) ++ two _ _ (a :: r) ++ one _ (a :: r) = _
      rw [two_short (inRange_dig (by decide) (by decide)) hr, two_short (fun _ h => h) hr, one_yes (isDig_iff.2 (by omega))]
      exact ⟨[], rfl⟩
    · show ∃ o, two _ _ (a :: b :: r) ++ two _ _ (a :: b :: r) ++ one _ (a :: b :: r) = _
      by_cases ha : a.toNat = 54
      · rw [two_yes (dateRange_iff.2 (by omega)) (dateRange_iff.2 (by omega))]
        exact ⟨_, rfl⟩
      · rw [two_no (p := inRange '6' '6') (fun x _ => by rw [dateRange_iff] at x; omega), two_yes (dateRange_iff.2 (by omega)) (isDig_iff.2 (by omega))]
        exact ⟨_, rfl⟩
  | f _ n _ h1 => exact map_first (fun n t => some { t with micro := n }) (millionths_first h1 hr)
  | ahead w n _ h1 =>
    obtain ⟨o, e⟩ := zone_first h1 hr
    refine ⟨fun t => some { t with offset := some (n : Int) }, o.map (fun v => (fun t => v.1.map (fun o => { t with offset := some (o : Int) }), v.2)), ?_, rfl⟩
    show (zoneTail (w ++ r)).map _ = _
    rw [e]
    rfl
  | behind w n _ h1 =>
    obtain ⟨o, e⟩ := zone_first h1 hr
    refine ⟨fun t => some { t with offset := some (-(n : Int)) }, o.map (fun v => (fun t => v.1.map (fun o => { t with offset := some (-(o : Int)) }), v.2)), ?_, rfl⟩
    show (zoneTail (w ++ r)).map _ = _
    rw [e]
    rfl
  | zulu => exact ⟨_, _, rfl, rfl⟩

theorem lower_small {x c : Char} (hx : x.toNat < 65) (h : x.toLower = c.toLower) : c = x := by
  have h1 : x.toLower = x := by
    unfold Char.toLower
    rw [dif_neg]
    rintro ⟨h1, _⟩
    have h1 : 65 ≤ x.toNat := h1
    omega
  rw [h1] at h
  unfold Char.toLower at h
  split at h
  · rename_i hc
    have h2 : x.toNat = (c.val + ('a'.val - 'A'.val)).toNat := by rw [h]; rfl
    have h3 : 65 ≤ c.val.toNat := hc.1
    have h4 : c.val.toNat ≤ 90 := hc.2
    rw [UInt32.toNat_add] at h2
    have h5 : ('a'.val - 'A'.val).toNat = 32 := by decide
    rw [h5] at h2
    omega
  · exact h.symm

/-- What a text of the rest of the format starts with cannot go on with the directive. -/
theorem Writes.stops {d : Dir} {ds : List Dir} (h : d.endsBefore ds = true) {s : PyStr} {t t' : DateTime} (hw : Writes ds s t t') : d.StopsAt s := by
  have key : ∀ {c x : Char}, isDig c = false → x.toLower = c.toLower → isDig x = false := by
    intro c x hc hx
    cases e : isDig x with
    | false => rfl
    | true =>
      rw [lower_small (by rw [isDig_iff] at e; omega) hx, e] at hc
      cases hc
  have hz : ∀ {w : PyStr} {u u' : DateTime}, Piece .z w u u' → ∀ r, NoDigit (w ++ r) := by
    intro w u u' hp r x r' e
    cases hp <;> (cases e; rfl)
  have hl : ∀ {c : Char} {w : PyStr} {u u' : DateTime}, Piece (.lit c) w u u' → ∃ x, w = [x] ∧ x.toLower = c.toLower := by
    intro c w u u' hp
    cases hp with
    | lit _ x _ hx => exact ⟨x, rfl, hx⟩
  have num : (∀ c ds', ds = .lit c :: ds' → isDig c = false) → (ds = [] ∨ (∃ c ds', ds = .lit c :: ds') ∨ ∃ ds', ds = .z :: ds') → NoDigit s := by
    intro h1 h2
    rcases h2 with rfl | ⟨c, ds', rfl⟩ | ⟨ds', rfl⟩
    · cases hw
      exact fun x r' e => nomatch e
    · cases hw with
      | cons hp _ =>
        obtain ⟨x, rfl, hx⟩ := hl hp
        intro y r' e
        cases e
        exact key (h1 c ds' rfl) hx
    · cases hw with
      | cons hp _ => exact hz hp _
  have num' : d ≠ .Y → (∀ c, d ≠ .lit c) → d ≠ .z → NoDigit s := by
    intro d1 d2 d3
    refine num ?_ ?_
    · rintro c ds' rfl
      cases d <;> simp_all [Dir.endsBefore]
    · cases ds with
      | nil => exact .inl rfl
      | cons e ds =>
        cases e with
        | lit c => exact .inr (.inl ⟨c, ds, rfl⟩)
        | z => exact .inr (.inr ⟨ds, rfl⟩)
        | _ => cases d <;> simp_all [Dir.endsBefore]
  cases d with
  | Y => trivial
  | lit c => trivial
  | z =>
    show ∀ x r', s = x :: r' → isDig x = false ∧ x ≠ ':' ∧ x ≠ '.'
    cases ds with
    | nil => cases hw; exact fun x r' e => nomatch e
    | cons e ds =>
      cases e with
      | lit c =>
        have h : (!isDig c && c != ':' && c != '.') = true := h
        simp only [Bool.and_eq_true, Bool.not_eq_true', bne_iff_ne, ne_eq] at h
        cases hw with
        | cons hp _ =>
          obtain ⟨x, rfl, hx⟩ := hl hp
          intro y r' e
          cases e
          refine ⟨key h.1.1 hx, ?_, ?_⟩
          · rintro rfl
            exact h.1.2 (lower_small (by decide) hx)
          · rintro rfl
            exact h.2 (lower_small (by decide) hx)
      | _ => cases h
  | _ => exact num' (by simp) (by simp) (by simp)

theorem matchDirs_complete : ∀ (ds : List Dir) (s : PyStr) {t t' : DateTime}, SeparatedDirs ds = true → Writes ds s t t' →
    matchDirs ds s (some t) = some (some t', [])
  | [], s, t, t', _, h => by cases h; rfl
  | d :: ds, s, t, t', hs, h => by
    rw [SeparatedDirs, Bool.and_eq_true] at hs
    cases h with
    | cons hp hw =>
      obtain ⟨u, o, e1, e2⟩ := reads_complete hp (hw.stops hs.1)
      refine matchDirs_cons e1 ?_
      rw [Option.bind_some, e2]
      exact matchDirs_complete ds _ hs.2 hw

theorem strptime_iff {ds : List Dir} (hs : SeparatedDirs ds = true) {s : PyStr} {t : DateTime} :
    strptime ds s = some t ↔ Writes ds s {} t ∧ t.valid = true :=
  ⟨strptime_sound, fun h => strptime_of (matchDirs_complete ds s hs h.1) h.2⟩

end Splitgill
