import Verif.Proof.Parse
import Verif.Proof.Options
import Verif.Proof.Store2
import Mathlib.Data.List.Nodup
/-!
# Lemmas about the summaries of types: sorting, grouping and splitting
-/

namespace Splitgill

/-! ## Strings -/

theorem toNat_inj {a b : Char} (h : a.toNat = b.toNat) : a = b := Char.toNat_inj.1 h

theorem strLe_refl : ∀ s : PyStr, strLe s s = true
  | [] => rfl
  | a :: s => by simp [strLe, strLe_refl s]

theorem strLe_total : ∀ s t : PyStr, strLe s t = true ∨ strLe t s = true
  | [], _ => .inl rfl
  | _ :: _, [] => .inr rfl
  | a :: s, b :: t => by
    rcases Nat.lt_trichotomy a.toNat b.toNat with h | h | h
    · left; simp [strLe, h]
    · rcases strLe_total s t with h' | h'
      · left; simp [strLe, h, h']
      · right; simp [strLe, h, h']
    · right; simp [strLe, h]

theorem strLe_trans : ∀ {s t u : PyStr}, strLe s t = true → strLe t u = true → strLe s u = true
  | [], _, _, _, _ => rfl
  | _ :: _, [], _, h, _ => by simp [strLe] at h
  | _ :: _, _ :: _, [], _, h => by simp [strLe] at h
  | a :: s, b :: t, c :: u, h1, h2 => by
    simp only [strLe] at h1 h2 ⊢
    split at h1
    · split at h2
      · rw [if_pos (by omega)]
      · split at h2
        · rw [if_pos (by omega)]
        · cases h2
    · split at h1
      · split at h2
        · rw [if_pos (by omega)]
        · split at h2
          · rw [if_neg (by omega), if_pos (by omega)]
            exact strLe_trans h1 h2
          · cases h2
      · cases h1

/-- What is between two strings with a prefix has it too. -/
theorem strLe_prefix : ∀ {x a b c : PyStr}, x <+: a → x <+: c → strLe a b = true → strLe b c = true → x <+: b
  | [], _, b, _, _, _, _, _ => List.nil_prefix
  | d :: x, [], _, _, h, _, _, _ => by simp at h
  | d :: x, _ :: _, _, [], _, h, _, _ => by simp at h
  | d :: x, a0 :: a, [], _, _, _, h, _ => by simp [strLe] at h
  | d :: x, a0 :: a, b0 :: b, c0 :: c, ha, hc, h1, h2 => by
    rw [List.cons_prefix_cons] at ha hc ⊢
    obtain ⟨rfl, ha⟩ := ha
    obtain ⟨rfl, hc⟩ := hc
    simp only [strLe] at h1 h2
    split at h1
    · split at h2
      · omega
      · split at h2
        · omega
        · cases h2
    · split at h1
      · rename_i e
        split at h2
        · omega
        · split at h2
          · exact ⟨toNat_inj e, strLe_prefix ha hc h1 h2⟩
          · cases h2
      · cases h1

/-! ## Dots -/

theorem rsplitDot_none : ∀ {t : PyStr}, '.' ∉ t → rsplitDot t = none
  | [], _ => rfl
  | c :: t, h => by
    have hc : c ≠ '.' := fun e => h (by rw [e]; exact List.mem_cons_self)
    rw [rsplitDot, rsplitDot_none (fun e => h (List.mem_cons_of_mem _ e))]
    dsimp only
    rw [if_neg hc]

theorem rsplitDot_dotted : ∀ (p : PyStr) {t : PyStr}, '.' ∉ t → rsplitDot (dotted p t) = some (p, t)
  | [], t, h => by
    change rsplitDot ('.' :: t) = _
    rw [rsplitDot, rsplitDot_none h]
    rfl
  | c :: p, t, h => by
    change rsplitDot (c :: dotted p t) = _
    rw [rsplitDot, rsplitDot_dotted p h]

theorem dotted_inj {k k' s s' : PyStr} (hk : '.' ∉ k) (hk' : '.' ∉ k') (h : dotted k s = dotted k' s') :
    k = k' ∧ s = s' := by
  induction k generalizing k' with
  | nil =>
    cases k' with
    | nil => simpa [dotted] using h
    | cons c k' =>
      simp only [dotted, List.nil_append, List.cons_append, List.cons.injEq] at h
      exact absurd (by rw [h.1]; exact List.mem_cons_self) hk'
  | cons c k ih =>
    cases k' with
    | nil =>
      simp only [dotted, List.nil_append, List.cons_append, List.cons.injEq] at h
      exact absurd (by rw [h.1]; exact List.mem_cons_self) hk
    | cons c' k' =>
      simp only [dotted, List.cons_append, List.cons.injEq] at h
      obtain ⟨rfl, h⟩ := h
      obtain ⟨h1, h2⟩ := ih (fun e => hk (List.mem_cons_of_mem _ e)) (fun e => hk' (List.mem_cons_of_mem _ e)) h
      exact ⟨by rw [h1], h2⟩

theorem pathText_cons (k : PyStr) {p : List PyStr} (hp : p ≠ []) : pathText (k :: p) = dotted k (pathText p) := by
  cases p with
  | nil => exact absurd rfl hp
  | cons c p =>
    unfold pathText
    rw [joinWith]
    · simp [dotted]
    · simp

theorem pathText_snoc : ∀ {p : List PyStr} (t : PyStr), p ≠ [] → pathText (p ++ [t]) = dotted (pathText p) t
  | [], _, h => absurd rfl h
  | [c], t, _ => by
    rw [List.singleton_append, pathText_cons c (by simp)]
    rfl
  | c :: d :: p, t, _ => by
    rw [List.cons_append, pathText_cons c (by simp), pathText_snoc t (by simp), pathText_cons c (by simp)]
    simp [dotted]

theorem dotted_assoc (k p t : PyStr) : dotted k (dotted p t) = dotted (dotted k p) t := by simp [dotted]

theorem first_dot : ∀ {p : PyStr}, '.' ∈ p → ∃ p1 p2, p = dotted p1 p2 ∧ '.' ∉ p1
  | [], h => by cases h
  | c :: p, h => by
    by_cases hc : c = '.'
    · subst hc
      exact ⟨[], p, rfl, by simp⟩
    · have hp : '.' ∈ p := by
        rcases List.mem_cons.1 h with h | h
        · exact absurd h.symm hc
        · exact h
      obtain ⟨p1, p2, rfl, h1⟩ := first_dot hp
      refine ⟨c :: p1, p2, rfl, ?_⟩
      rw [List.mem_cons, not_or]
      exact ⟨fun e => hc e.symm, h1⟩

/-- A dot in a path is between two parts of it. -/
theorem pathText_split : ∀ {cs : List PyStr} {p r : PyStr}, (∀ c ∈ cs, '.' ∉ c) → pathText cs = dotted p r →
    ∃ cs1 cs2, cs = cs1 ++ cs2 ∧ cs1 ≠ [] ∧ cs2 ≠ [] ∧ pathText cs1 = p ∧ pathText cs2 = r
  | [], p, r, _, h => by
    have := congrArg List.length h
    simp [pathText, joinWith, dotted] at this
  | [c], p, r, hc, h => by
    have : '.' ∈ c := by
      have e : pathText [c] = c := rfl
      rw [← e, h]
      simp [dotted]
    exact absurd this (hc c List.mem_cons_self)
  | c :: d :: cs, p, r, hc, h => by
    rw [pathText_cons c (by simp)] at h
    have hc0 : '.' ∉ c := hc c List.mem_cons_self
    by_cases hp : '.' ∈ p
    · obtain ⟨p1, p2, rfl, hp1⟩ := first_dot hp
      rw [← dotted_assoc] at h
      obtain ⟨rfl, h2⟩ := dotted_inj hc0 hp1 h
      obtain ⟨cs1, cs2, e, h1, h3, h4, h5⟩ := pathText_split (fun x hx => hc x (List.mem_cons_of_mem _ hx)) h2
      refine ⟨c :: cs1, cs2, by rw [e]; rfl, by simp, h3, ?_, h5⟩
      rw [pathText_cons c h1, h4]
    · obtain ⟨rfl, h2⟩ := dotted_inj hc0 hp h
      exact ⟨[c], d :: cs, rfl, by simp, by simp, rfl, h2⟩

/-! ## Groups -/

theorem groupBy_head {α κ : Type} [DecidableEq κ] (key : α → κ) (a : α) (l : List α) :
    ∃ g r, groupBy key (a :: l) = (key a, g) :: r := by
  rw [groupBy]
  split
  · rename_i k g r h
    by_cases e : key a = k
    · rw [if_pos e]; exact ⟨_, _, by rw [e]⟩
    · rw [if_neg e]; exact ⟨_, _, rfl⟩
  · exact ⟨_, _, rfl⟩

theorem groupBy_spec {α κ : Type} [DecidableEq κ] (key : α → κ) {R : α → α → Prop} : ∀ {l : List α}, l.Pairwise R →
    (∀ x ∈ l, ∀ y ∈ l, ∀ z ∈ l, R x y → R y z → key x = key z → key y = key x) →
    ((groupBy key l).map Prod.fst).Nodup ∧
    (∀ k g, (k, g) ∈ groupBy key l → g = l.filter (fun a => decide (key a = k)) ∧ g ≠ []) ∧
    (∀ a ∈ l, key a ∈ (groupBy key l).map Prod.fst)
  | [], _, _ => by simp [groupBy]
  | [a], _, _ => by simp [groupBy]
  | a :: b :: l, hp, hsep => by
    have hp' := (List.pairwise_cons.1 hp)
    obtain ⟨h1, h2, h3⟩ := groupBy_spec key hp'.2 (fun x hx y hy z hz =>
      hsep x (List.mem_cons_of_mem _ hx) y (List.mem_cons_of_mem _ hy) z (List.mem_cons_of_mem _ hz))
    obtain ⟨g, r, e⟩ := groupBy_head key b l
    rw [groupBy, e]
    dsimp only
    rw [e] at h1 h2 h3
    by_cases hk : key a = key b
    · rw [if_pos hk]
      refine ⟨h1, ?_, ?_⟩
      · intro k g' hm
        rcases List.mem_cons.1 hm with hm | hm
        · cases hm
          have := h2 _ _ List.mem_cons_self
          refine ⟨?_, by simp⟩
          rw [List.filter_cons, if_pos (by simpa using hk), ← this.1]
        · have := h2 k g' (List.mem_cons_of_mem _ hm)
          have hne : key a ≠ k := by
            rintro rfl
            rw [List.map_cons, List.nodup_cons] at h1
            exact h1.1 (List.mem_map.2 ⟨_, hm, hk⟩)
          refine ⟨?_, this.2⟩
          rw [List.filter_cons, if_neg (by simpa using hne)]
          exact this.1
      · intro x hx
        rcases List.mem_cons.1 hx with rfl | hx
        · exact List.mem_map.2 ⟨_, List.mem_cons_self, hk.symm⟩
        · exact h3 x hx
    · rw [if_neg hk]
      have hout : ∀ z ∈ b :: l, key z ≠ key a := by
        intro z hz hez
        rcases List.mem_cons.1 hz with rfl | hz'
        · exact hk hez.symm
        · exact hk (hsep a List.mem_cons_self b (by simp) z (by simp [hz'])
            (hp'.1 b List.mem_cons_self) ((List.pairwise_cons.1 hp'.2).1 z hz') hez.symm).symm
      refine ⟨?_, ?_, ?_⟩
      · rw [List.map_cons, List.nodup_cons]
        refine ⟨?_, h1⟩
        intro hm
        obtain ⟨⟨k, g'⟩, hm, hkk⟩ := List.mem_map.1 hm
        dsimp only at hkk
        obtain ⟨hg, hne⟩ := h2 k g' hm
        obtain ⟨z, hz⟩ := List.exists_mem_of_ne_nil _ hne
        rw [hg, List.mem_filter, decide_eq_true_eq] at hz
        exact hout z hz.1 (hz.2.trans hkk)
      · intro k g' hm
        rcases List.mem_cons.1 hm with hm | hm
        · cases hm
          refine ⟨?_, by simp⟩
          rw [List.filter_cons, if_pos (by simp)]
          congr 1
          rw [eq_comm, List.filter_eq_nil_iff]
          intro z hz
          simpa using hout z hz
        · have := h2 k g' hm
          have hne : key a ≠ k := by
            rintro rfl
            obtain ⟨z, hz⟩ := List.exists_mem_of_ne_nil _ this.2
            rw [this.1, List.mem_filter, decide_eq_true_eq] at hz
            exact hout z hz.1 hz.2
          refine ⟨?_, this.2⟩
          rw [List.filter_cons, if_neg (by simpa using hne)]
          exact this.1
      · intro x hx
        rcases List.mem_cons.1 hx with rfl | hx
        · simp
        · rw [List.map_cons]
          exact List.mem_cons_of_mem _ (h3 x hx)

/-! ## Commas -/

theorem splitComma_ne_nil : ∀ s : PyStr, splitComma s ≠ []
  | [] => by simp [splitComma]
  | c :: s => by
    rw [splitComma]
    split
    · simp
    · split <;> simp

theorem splitComma_one : ∀ {s : PyStr}, ',' ∉ s → splitComma s = [s]
  | [], _ => rfl
  | c :: s, h => by
    have hc : c ≠ ',' := fun e => h (by rw [e]; exact List.mem_cons_self)
    rw [splitComma, splitComma_one (fun e => h (List.mem_cons_of_mem _ e))]
    dsimp only
    rw [if_neg hc]

theorem splitComma_append : ∀ {s : PyStr} (r : PyStr), ',' ∉ s → splitComma (s ++ ',' :: r) = s :: splitComma r
  | [], r, _ => by
    rw [List.nil_append, splitComma]
    split
    · rename_i h; exact absurd h (splitComma_ne_nil r)
    · rename_i h; rw [if_pos rfl, h]
  | c :: s, r, h => by
    have hc : c ≠ ',' := fun e => h (by rw [e]; exact List.mem_cons_self)
    rw [List.cons_append, splitComma, splitComma_append r (fun e => h (List.mem_cons_of_mem _ e))]
    dsimp only
    rw [if_neg hc]

theorem splitComma_join : ∀ {l : List PyStr}, l ≠ [] → (∀ s ∈ l, ',' ∉ s) → splitComma (joinWith [','] l) = l
  | [], h, _ => absurd rfl h
  | [s], _, h => splitComma_one (h s List.mem_cons_self)
  | s :: t :: l, _, h => by
    rw [joinWith]
    · rw [List.append_assoc, List.singleton_append, splitComma_append _ (h s List.mem_cons_self),
        splitComma_join (by simp) (fun x hx => h x (List.mem_cons_of_mem _ hx))]
    · simp

theorem dot_join : ∀ {l : List PyStr}, (∀ s ∈ l, '.' ∉ s) → '.' ∉ joinWith [','] l
  | [], _ => by simp [joinWith]
  | [s], h => h s List.mem_cons_self
  | s :: t :: l, h => by
    rw [joinWith]
    · simp only [List.mem_append, not_or]
      exact ⟨⟨h s List.mem_cons_self, by decide⟩, dot_join (fun x hx => h x (List.mem_cons_of_mem _ hx))⟩
    · simp

/-! ## Summaries -/

theorem splitAll_ok : ∀ {l : List PyStr}, (∀ s ∈ l, ∃ p t, '.' ∉ t ∧ s = dotted p t) → ∃ parts, splitAll l = .ok parts ∧
    parts.map (fun x => dotted x.1 x.2) = l ∧ ∀ x ∈ parts, '.' ∉ x.2
  | [], _ => ⟨[], rfl, rfl, by simp⟩
  | s :: l, h => by
    obtain ⟨parts, h1, h2, h3⟩ := splitAll_ok (fun x hx => h x (List.mem_cons_of_mem _ hx))
    obtain ⟨p, t, ht, rfl⟩ := h s List.mem_cons_self
    refine ⟨(p, t) :: parts, ?_, by rw [List.map_cons, h2], ?_⟩
    · rw [splitAll, rsplitDot_dotted p ht, h1]
    · intro x hx
      rcases List.mem_cons.1 hx with rfl | hx
      · exact ht
      · exact h3 x hx

/-- What can be summarised: paths and types such that no part of a path but the first looks like a type. -/
structure Summable (c : Char) (occ : List PyStr → PyStr → Prop) : Prop where
  nonempty : ∀ p t, occ p t → p ≠ []
  no_dot : ∀ p t, occ p t → ∀ x ∈ p, '.' ∉ x
  tail : ∀ p t, occ p t → ∀ x ∈ p.tail, x.head? ≠ some c
  type_dot : ∀ p t, occ p t → '.' ∉ t
  type_comma : ∀ p t, occ p t → ',' ∉ t
  type_head : ∀ p t, occ p t → t.head? = some c

theorem Summable.sep {c : Char} {occ : List PyStr → PyStr → Prop} (h : Summable c occ) {p1 t1 p2 t2 p3 t3}
    (h1 : occ p1 t1) (h2 : occ p2 t2) (h3 : occ p3 t3)
    (le1 : strLe (dotted (pathText p1) t1) (dotted (pathText p2) t2) = true)
    (le2 : strLe (dotted (pathText p2) t2) (dotted (pathText p3) t3) = true)
    (he : pathText p1 = pathText p3) : pathText p2 = pathText p1 := by
  have hd : ∀ {p t}, occ p t → dotted (pathText p1) [c] <+: dotted (pathText p) t ∨ pathText p ≠ pathText p1 := by
    intro p t hpt
    by_cases e : pathText p = pathText p1
    · left
      rw [e]
      have := h.type_head p t hpt
      cases t with
      | nil => cases this
      | cons d t =>
        simp only [List.head?_cons, Option.some.injEq] at this
        subst this
        exact ⟨t, by simp [dotted]⟩
    · exact .inr e
  have hp1 : dotted (pathText p1) [c] <+: dotted (pathText p1) t1 := by
    rcases hd h1 with h | h
    · exact h
    · exact absurd rfl h
  have hp3 : dotted (pathText p1) [c] <+: dotted (pathText p3) t3 := by
    rcases hd h3 with h | h
    · exact h
    · exact absurd he.symm h
  obtain ⟨r, hr⟩ := strLe_prefix hp1 hp3 le1 le2
  have hne := h.nonempty _ _ h2
  rw [← pathText_snoc t2 hne] at hr
  have hdots : ∀ x ∈ p2 ++ [t2], '.' ∉ x := by
    intro x hx
    rcases List.mem_append.1 hx with hx | hx
    · exact h.no_dot _ _ h2 x hx
    · rw [List.mem_singleton.1 hx]; exact h.type_dot _ _ h2
  obtain ⟨cs1, cs2, e, hne1, hne2, e1, e2⟩ := pathText_split (p := pathText p1) (r := c :: r) hdots (by
    rw [← hr]; simp [dotted])
  -- the part after the dot starts with `c`: it is the type
  cases cs2 with
  | nil => exact absurd rfl hne2
  | cons x cs2 =>
    have hx : x.head? = some c := by
      cases cs2 with
      | nil =>
        have : x = c :: r := e2
        rw [this]; rfl
      | cons y cs2 =>
        rw [pathText_cons x (by simp)] at e2
        cases x with
        | nil =>
          simp only [dotted, List.nil_append, List.cons.injEq] at e2
          have hm : ([] : PyStr) ∈ p2 ++ [t2] := by rw [e]; simp
          -- `c` would be a dot, but a type starts with it
          have := h.type_dot _ _ h2
          have hh := h.type_head _ _ h2
          rw [← e2.1] at hh
          cases t2 with
          | nil => cases hh
          | cons d t2 =>
            simp only [List.head?_cons, Option.some.injEq] at hh
            rw [hh] at this
            exact absurd List.mem_cons_self this
        | cons d x =>
          simp only [dotted, List.cons_append, List.cons.injEq] at e2
          rw [e2.1]; rfl
    rcases List.eq_nil_or_concat cs2 with rfl | ⟨cs3, y, rfl⟩
    · have := (List.append_inj' e rfl).1
      rw [this, e1]
    · have e' : p2 ++ [t2] = (cs1 ++ x :: cs3) ++ [y] := by rw [e]; simp
      have := (List.append_inj' e' rfl).1
      exfalso
      refine h.tail _ _ h2 x ?_ hx
      rw [this]
      cases cs1 with
      | nil => exact absurd rfl hne1
      | cons z cs1 => simp

theorem summarise_spec {c : Char} {occ : List PyStr → PyStr → Prop} (h : Summable c occ) {l : List PyStr}
    (hmem : ∀ s, s ∈ l ↔ ∃ p t, occ p t ∧ s = dotted (pathText p) t) (hn : l.Nodup) :
    ∃ es, summarise l = .ok es ∧ Summarises es occ := by
  have hperm := sortBy_perm strLe l
  have hmem' : ∀ s, s ∈ sortBy strLe l ↔ ∃ p t, occ p t ∧ s = dotted (pathText p) t := by
    intro s; rw [hperm.mem_iff, hmem]
  have hn' : (sortBy strLe l).Nodup := hperm.nodup_iff.2 hn
  obtain ⟨parts, h1, h2, h3⟩ := splitAll_ok (l := sortBy strLe l) (by
    intro s hs
    obtain ⟨p, t, hpt, rfl⟩ := (hmem' s).1 hs
    exact ⟨_, t, h.type_dot p t hpt, rfl⟩)
  have hparts : ∀ x, x ∈ parts ↔ ∃ p, occ p x.2 ∧ x.1 = pathText p := by
    intro x
    constructor
    · intro hx
      have : dotted x.1 x.2 ∈ sortBy strLe l := by rw [← h2]; exact List.mem_map.2 ⟨x, hx, rfl⟩
      obtain ⟨p, t, hpt, e⟩ := (hmem' _).1 this
      have e' := congrArg rsplitDot e
      rw [rsplitDot_dotted _ (h3 x hx), rsplitDot_dotted _ (h.type_dot p t hpt), Option.some.injEq, Prod.mk.injEq] at e'
      refine ⟨p, ?_, e'.1⟩
      rw [e'.2]; exact hpt
    · rintro ⟨p, hpt, e⟩
      have : dotted x.1 x.2 ∈ sortBy strLe l := (hmem' _).2 ⟨p, x.2, hpt, by rw [e]⟩
      rw [← h2] at this
      obtain ⟨y, hy, e2⟩ := List.mem_map.1 this
      have e' := congrArg rsplitDot e2
      rw [rsplitDot_dotted _ (h3 y hy), rsplitDot_dotted _ (h.type_dot p x.2 hpt), Option.some.injEq] at e'
      have : y = x := Prod.ext (congrArg Prod.fst e') (congrArg Prod.snd e')
      rw [← this]; exact hy
  have hpn : parts.Nodup := by
    rw [← h2] at hn'
    exact nodup_of_map _ hn'
  have hpw : parts.Pairwise (fun x y => strLe (dotted x.1 x.2) (dotted y.1 y.2) = true) := by
    have := sortBy_pairwise (le := strLe) (fun a b hab => (strLe_total a b).resolve_left (by rw [hab]; decide))
      (fun _ _ _ h1 h2 => strLe_trans h1 h2) l
    rw [← h2, List.pairwise_map] at this
    exact this
  obtain ⟨g1, g2, g3⟩ := groupBy_spec Prod.fst hpw (by
    intro x hx y hy z hz hxy hyz he
    obtain ⟨p1, o1, e1⟩ := (hparts x).1 hx
    obtain ⟨p2, o2, e2⟩ := (hparts y).1 hy
    obtain ⟨p3, o3, e3⟩ := (hparts z).1 hz
    rw [e1, e2] at hxy
    rw [e2, e3] at hyz
    rw [e1, e3] at he
    rw [e1, e2]
    exact h.sep o1 o2 o3 hxy hyz he)
  refine ⟨_, by unfold summarise; rw [h1], ?_⟩
  have hgt : ∀ k g, (k, g) ∈ groupBy Prod.fst parts → ∀ t, t ∈ g.map Prod.snd ↔ (k, t) ∈ parts := by
    intro k g hg t
    rw [(g2 k g hg).1, List.mem_map]
    constructor
    · rintro ⟨⟨a, b⟩, hm, rfl⟩
      rw [List.mem_filter, decide_eq_true_eq] at hm
      obtain ⟨hm, rfl⟩ := hm
      exact hm
    · intro hm
      exact ⟨(k, t), by rw [List.mem_filter]; exact ⟨hm, by simp⟩, rfl⟩
  have hsplit : ∀ k g, (k, g) ∈ groupBy Prod.fst parts →
      rsplitDot (dotted k (joinWith [','] (g.map Prod.snd))) = some (k, joinWith [','] (g.map Prod.snd)) := by
    intro k g hg
    apply rsplitDot_dotted
    apply dot_join
    intro t ht
    exact h3 _ ((hgt k g hg t).1 ht)
  have hpath : ∀ k g, (k, g) ∈ groupBy Prod.fst parts → entryPath (dotted k (joinWith [','] (g.map Prod.snd))) = k := by
    intro k g hg
    unfold entryPath
    rw [hsplit k g hg]
    rfl
  have htypes : ∀ k g, (k, g) ∈ groupBy Prod.fst parts →
      entryTypes (dotted k (joinWith [','] (g.map Prod.snd))) = g.map Prod.snd := by
    intro k g hg
    unfold entryTypes
    rw [hsplit k g hg]
    refine splitComma_join ?_ ?_
    · simpa using (g2 k g hg).2
    · intro t ht
      obtain ⟨p, hpt, _⟩ := (hparts _).1 ((hgt k g hg t).1 ht)
      exact h.type_comma _ _ hpt
  constructor
  · rw [List.map_map]
    have : (groupBy Prod.fst parts).map (entryPath ∘ fun g => dotted g.1 (joinWith [','] (g.2.map Prod.snd))) =
        (groupBy Prod.fst parts).map Prod.fst := by
      apply List.map_congr_left
      rintro ⟨k, g⟩ hg
      exact hpath k g hg
    rw [this]
    exact g1
  · intro e he
    obtain ⟨⟨k, g⟩, hg, rfl⟩ := List.mem_map.1 he
    dsimp only
    rw [htypes k g hg, hpath k g hg]
    constructor
    · rw [(g2 k g hg).1]
      have hsub : (parts.filter (fun a => decide (a.1 = k))).Nodup := hpn.filter _
      refine List.Nodup.map_on ?_ hsub
      intro x hx y hy e
      rw [List.mem_filter, decide_eq_true_eq] at hx hy
      exact Prod.ext (hx.2.trans hy.2.symm) e
    · intro t
      rw [hgt k g hg t, hparts]
      constructor
      · rintro ⟨p, hpt, e⟩; exact ⟨p, e.symm, hpt⟩
      · rintro ⟨p, e, hpt⟩; exact ⟨p, hpt, e.symm⟩
  · intro p t hpt
    have hm : (pathText p, t) ∈ parts := (hparts _).2 ⟨p, hpt, rfl⟩
    obtain ⟨⟨k, g⟩, hg, e⟩ := List.mem_map.1 (g3 _ hm)
    dsimp only at e
    refine ⟨_, List.mem_map.2 ⟨(k, g), hg, rfl⟩, ?_⟩
    rw [hpath k g hg, e]

end Splitgill
