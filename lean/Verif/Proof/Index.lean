import Verif.Spec.Index
import Verif.Proof.Reach
import Verif.Proof.World3
/-!
# Lemmas about the record versions
-/

namespace Splitgill

/-! ## Values as of a version -/

theorem AsOf.unique {α : Type} {l : List (Int × α)} (hn : (l.map Prod.fst).Nodup) {v : Int} {a b : α}
    (ha : AsOf l v a) (hb : AsOf l v b) : a = b := by
  obtain ⟨w, h1, h2, h3⟩ := ha
  obtain ⟨w', h1', h2', h3'⟩ := hb
  have : w = w' := by
    have := h3 _ _ h1' h2'
    have := h3' _ _ h1 h2
    omega
  subst this
  have e1 := aget_of_mem (d := l) hn h1
  have e2 := aget_of_mem (d := l) hn h1'
  rw [e1] at e2; exact Option.some.inj e2

theorem AsOf.gap {α : Type} {l : List (Int × α)} {x v : Int} (hx : x ≤ v)
    (hg : ∀ w a, (w, a) ∈ l → w ≤ v → w ≤ x) (a : α) : AsOf l v a ↔ AsOf l x a := by
  constructor
  · rintro ⟨w, h1, h2, h3⟩
    exact ⟨w, h1, hg _ _ h1 h2, fun w' y h h' => h3 _ _ h (by omega)⟩
  · rintro ⟨w, h1, h2, h3⟩
    exact ⟨w, h1, by omega, fun w' y h h' => h3 _ _ h (hg _ _ h h')⟩

theorem Alive.gap {l : List (Int × Dict)} {x v : Int} (hx : x ≤ v)
    (hg : ∀ w a, (w, a) ∈ l → w ≤ v → w ≤ x) : Alive l v ↔ Alive l x := by
  simp only [Alive, AsOf.gap hx hg]

theorem OptionsAsOf.gap {l : List (Int × ParsingOptions)} {x v : Int} (hx : x ≤ v)
    (hg : ∀ w a, (w, a) ∈ l → w ≤ v → w ≤ x) (o : ParsingOptions) : OptionsAsOf l v o ↔ OptionsAsOf l x o := by
  have h : (∀ w y, (w, y) ∈ l → v < w) ↔ (∀ w y, (w, y) ∈ l → x < w) := by
    constructor
    · intro h w y hm; have := h _ _ hm; omega
    · intro h w y hm
      have h1 := h _ _ hm
      by_cases hv : w ≤ v
      · have := hg _ _ hm hv; omega
      · omega
  simp only [OptionsAsOf, AsOf.gap hx hg, h]

theorem OptionsAsOf.unique {l : List (Int × ParsingOptions)} (hn : (l.map Prod.fst).Nodup) {v : Int}
    {a b : ParsingOptions} (ha : OptionsAsOf l v a) (hb : OptionsAsOf l v b) : a = b := by
  rcases ha with ha | ⟨ha, w, h1, h2⟩ <;> rcases hb with hb | ⟨hb, w', h1', h2'⟩
  · exact ha.unique hn hb
  · obtain ⟨w, h1, h2, h3⟩ := ha
    have := hb _ _ h1; omega
  · obtain ⟨w, h1, h2, h3⟩ := hb
    have := ha _ _ h1; omega
  · have : w = w' := by
      have := h2 _ _ h1'; have := h2' _ _ h1; omega
    subst this
    have e1 := aget_of_mem (d := l) hn h1
    have e2 := aget_of_mem (d := l) hn h1'
    rw [e1] at e2; exact Option.some.inj e2

theorem AsOf.here {α : Type} {l : List (Int × α)} {v : Int} {a : α} (h : (v, a) ∈ l) : AsOf l v a :=
  ⟨v, h, by omega, fun _ _ _ h => h⟩

/-! ## Documents, newest first -/

section
variable {P : Type}

/-- The documents of record versions, newest first. -/
def docsRev : Option (RecordVersion P) → List (RecordVersion P) → List (Doc P)
  | _, [] => []
  | next, rv :: rest => rv.createDoc next :: docsRev (some rv) rest

theorem createDocs_reverse : ∀ (l tail : List (RecordVersion P)),
    createDocs (l.reverse ++ tail) = (docsRev tail.head? l).reverse ++ createDocs tail
  | [], tail => by simp [docsRev]
  | rv :: rest, tail => by
    have := createDocs_reverse rest (rv :: tail)
    simp only [List.reverse_cons, List.append_assoc, List.singleton_append, docsRev] at this ⊢
    rw [this]
    simp [createDocs]

theorem createDocs_docsRev (l : List (RecordVersion P)) : createDocs l.reverse = (docsRev none l).reverse := by
  have := createDocs_reverse l []
  simpa [createDocs] using this

/-- The range of the newest document, if open, is closed at `y`. -/
def closeAt (y : Int) : List (Doc P) → List (Doc P)
  | [] => []
  | h :: t => (if h.lt.isNone then { h with lt := some y, next := some y } else h) :: t

theorem docsRev_congr {a b : RecordVersion P} (h : a.version = b.version) (l : List (RecordVersion P)) :
    docsRev (some a) l = docsRev (some b) l := by
  cases l with
  | nil => rfl
  | cons rv rest => simp [docsRev, RecordVersion.createDoc, RecordVersion.versionEnd, h]

theorem docsRev_deleted (last : RecordVersion P) (rest : List (RecordVersion P)) (y : Int) :
    docsRev none ((if last.deletedAt.isNone then { last with deletedAt := some y } else last) :: rest) =
      closeAt y (docsRev none (last :: rest)) := by
  cases hd : last.deletedAt with
  | none =>
    simp only [docsRev, closeAt, Option.isNone_none, if_true, RecordVersion.createDoc, RecordVersion.versionEnd, hd,
      Option.map_none]
    rw [docsRev_congr (b := last)]; rfl
  | some d =>
    simp [docsRev, closeAt, RecordVersion.createDoc, RecordVersion.versionEnd, hd]

theorem docsRev_push (doc last : RecordVersion P) (rest : List (RecordVersion P)) :
    docsRev none (doc :: last :: rest) =
      doc.createDoc none :: closeAt doc.version (docsRev none (last :: rest)) := by
  cases hd : last.deletedAt <;>
    simp [docsRev, closeAt, RecordVersion.createDoc, RecordVersion.versionEnd, hd]

/-- What the documents (newest first) satisfy when all versions up to `x` have been looked at; `keys` are the
versions of the data and options. -/
structure DocsInv (X : Parser P) (id : PyStr) (hist : List (Int × Dict)) (used : List (Int × ParsingOptions))
    (keys : Int → Prop) (x : Int) (D : List (Doc P)) : Prop where
  ids : ∀ d ∈ D, d.id = id
  fields : ∀ d ∈ D, d.version = d.gte ∧ d.next = d.lt
  start : ∀ d ∈ D, d.gte ≤ x ∧ keys d.gte
  stop : ∀ d ∈ D, ∀ e, d.lt = some e → d.gte < e ∧ e ≤ x ∧ keys e
  pair : D.Pairwise (fun a b => ∃ e, b.lt = some e ∧ e ≤ a.gte)
  alive : ∀ v, v ≤ x → ((∃ d ∈ D, d.covers v) ↔ Alive hist v)
  parsed : ∀ v, v ≤ x → ∀ d ∈ D, d.covers v → ∀ a o, AsOf hist v a → OptionsAsOf used v o →
    X.same d.parsed (X.parse a o)
  start_alive : ∀ d ∈ D, ∀ a o, AsOf hist d.gte a → OptionsAsOf used d.gte o → d.parsed = X.parse a o
  distinct : D.Pairwise (fun a b => b.lt = some a.gte → X.eq b.parsed a.parsed = false ∧
    (a.gte ∉ hist.map Prod.fst → X.eqSame b.parsed a.parsed = false))

theorem covers_closeAt {y v : Int} (hv : v < y) (D : List (Doc P)) :
    (∃ d ∈ closeAt y D, d.covers v) ↔ ∃ d ∈ D, d.covers v := by
  cases D with
  | nil => simp [closeAt]
  | cons h t =>
    have : ∀ d : Doc P, ((if d.lt.isNone then { d with lt := some y, next := some y } else d).covers v) ↔ d.covers v := by
      intro d
      split
      · rename_i hd
        have hd := Option.isNone_iff_eq_none.1 hd
        simp [Doc.covers, hd, hv]
      · rfl
    simp only [closeAt, List.mem_cons, exists_eq_or_imp, this]

theorem mem_closeAt {y : Int} {D : List (Doc P)} {d} (h : d ∈ closeAt y D) :
    d ∈ D ∨ ∃ d0 ∈ D, d0.lt = none ∧ d = { d0 with lt := some y, next := some y } := by
  cases D with
  | nil => simp [closeAt] at h
  | cons a t =>
    rcases List.mem_cons.1 h with h | h
    · split at h
      · rename_i hd
        exact .inr ⟨a, List.mem_cons_self, Option.isNone_iff_eq_none.1 hd, h⟩
      · exact .inl (h ▸ List.mem_cons_self)
    · exact .inl (List.mem_cons_of_mem _ h)

section
variable {X : Parser P} {id : PyStr} {hist : List (Int × Dict)} {used : List (Int × ParsingOptions)}
  {keys : Int → Prop} {x y : Int} {D : List (Doc P)}

/-- Beyond `x` a document covers what it covers at `x`. -/
theorem DocsInv.covers_after (h : DocsInv X id hist used keys x D) {d} (hd : d ∈ D) {v : Int} (hv : x ≤ v) :
    d.covers v ↔ d.lt = none := by
  constructor
  · rintro ⟨h1, h2⟩
    cases he : d.lt with
    | none => rfl
    | some e =>
      have := (h.stop d hd e he).2.1
      have := h2 e he; omega
  · intro he
    have := (h.start d hd).1
    exact ⟨by omega, by simp [he]⟩

theorem DocsInv.upTo (h : DocsInv X id hist used keys x D) {v : Int}
    (hg : ∀ w a, (w, a) ∈ hist → w ≤ v → w ≤ x) (hu : ∀ w a, (w, a) ∈ used → w ≤ v → w ≤ x) :
    ((∃ d ∈ D, d.covers v) ↔ Alive hist v) ∧ ∀ d ∈ D, d.covers v → ∀ a o, AsOf hist v a → OptionsAsOf used v o →
      X.same d.parsed (X.parse a o) := by
  by_cases hv : v ≤ x
  · exact ⟨h.alive v hv, h.parsed v hv⟩
  · have hx : x ≤ v := by omega
    have hc : ∀ d ∈ D, (d.covers v ↔ d.covers x) := fun d hd => by
      rw [h.covers_after hd hx, h.covers_after hd (Int.le_refl x)]
    constructor
    · rw [Alive.gap hx hg, ← h.alive x (Int.le_refl x)]
      constructor
      · rintro ⟨d, hd, hd'⟩; exact ⟨d, hd, (hc d hd).1 hd'⟩
      · rintro ⟨d, hd, hd'⟩; exact ⟨d, hd, (hc d hd).2 hd'⟩
    · intro d hd hd' a o ha ho
      exact h.parsed x (Int.le_refl x) d hd ((hc d hd).1 hd') a o ((AsOf.gap hx hg a).1 ha)
        ((OptionsAsOf.gap hx hu o).1 ho)

/-- Only the newest document can be open. -/
theorem DocsInv.open_head {h0 : Doc P} {t : List (Doc P)} (h : DocsInv X id hist used keys x (h0 :: t)) {d}
    (hd : d ∈ t) : d.lt ≠ none := by
  obtain ⟨e, he, _⟩ := (List.pairwise_cons.1 h.pair).1 d hd
  simp [he]

variable (hxy : x < y) (hk : keys y)
  (hg : ∀ w a, (w, a) ∈ hist → w < y → w ≤ x) (hu : ∀ w a, (w, a) ∈ used → w < y → w ≤ x)
include hxy hk hg hu

/-- The invariant for `v < y` after closing. -/
theorem DocsInv.close (h : DocsInv X id hist used keys x D) (hd : ¬ Alive hist y) :
    DocsInv X id hist used keys y (closeAt y D) := by
  constructor
  · intro d hm
    rcases mem_closeAt hm with hm | ⟨d0, hq, _, rfl⟩
    · exact h.ids d hm
    · exact h.ids d0 hq
  · intro d hm
    rcases mem_closeAt hm with hm | ⟨d0, hq, _, rfl⟩
    · exact h.fields d hm
    · exact ⟨(h.fields d0 hq).1, rfl⟩
  · intro d hm
    rcases mem_closeAt hm with hm | ⟨d0, hq, _, rfl⟩
    · have := h.start d hm; exact ⟨by omega, this.2⟩
    · have := h.start d0 hq; exact ⟨by simp only; omega, this.2⟩
  · intro d hm e he
    rcases mem_closeAt hm with hm | ⟨d0, hq, _, rfl⟩
    · have := h.stop d hm e he; exact ⟨this.1, by omega, this.2.2⟩
    · have := h.start d0 hq
      cases he
      exact ⟨by simp only; omega, by omega, hk⟩
  · cases D with
    | nil => exact .nil
    | cons a t =>
      have := List.pairwise_cons.1 h.pair
      refine List.pairwise_cons.2 ⟨fun b hb => ?_, this.2⟩
      obtain ⟨e, h1, h2⟩ := this.1 b hb
      exact ⟨e, h1, by split <;> exact h2⟩
  · intro v hv
    by_cases hvy : v < y
    · rw [covers_closeAt hvy]
      exact (h.upTo (fun w a hm hw => hg w a hm (by omega)) (fun w a hm hw => hu w a hm (by omega))).1
    · have : v = y := by omega
      subst this
      refine ⟨?_, fun h => absurd h hd⟩
      rintro ⟨d, hm, hc⟩
      rcases mem_closeAt hm with hm' | ⟨d0, hm', _, rfl⟩
      · cases D with
        | nil => cases hm'
        | cons a t =>
          have hn := (h.covers_after hm' (by omega)).1 hc
          rcases List.mem_cons.1 hm with hm | hm
          · split at hm
            · have := hm ▸ hn; cases this
            · rename_i ha; rw [hm] at hn; simp [hn] at ha
          · exact absurd hn (h.open_head hm)
      · have := hc.2 v rfl; omega
  · intro v hv d hm hc a o ha ho
    by_cases hvy : v < y
    · have hu' := (h.upTo (v := v) (fun w a hm hw => hg w a hm (by omega)) (fun w a hm hw => hu w a hm (by omega))).2
      rcases mem_closeAt hm with hm | ⟨d0, hq, he, rfl⟩
      · exact hu' d hm hc a o ha ho
      · exact hu' d0 hq ⟨hc.1, by simp [he]⟩ a o ha ho
    · have : v = y := by omega
      subst this
      exfalso
      rcases mem_closeAt hm with hm' | ⟨d0, hm', _, rfl⟩
      · cases D with
        | nil => cases hm'
        | cons a t =>
          have hn := (h.covers_after hm' (by omega)).1 hc
          rcases List.mem_cons.1 hm with hm | hm
          · split at hm
            · have := hm ▸ hn; cases this
            · rename_i ha; rw [hm] at hn; simp [hn] at ha
          · exact absurd hn (h.open_head hm)
      · have := hc.2 v rfl; omega
  · intro d hm
    rcases mem_closeAt hm with hm | ⟨d0, hq, _, rfl⟩
    · exact h.start_alive d hm
    · exact h.start_alive d0 hq
  · cases D with
    | nil => exact .nil
    | cons a t =>
      have := List.pairwise_cons.1 h.distinct
      refine List.pairwise_cons.2 ⟨fun b hb he => ?_, this.2⟩
      have h1 := this.1 b hb
      split at he <;> split <;> first | exact h1 he | (exact h1 he)

/-- The invariant when the parse at `y` is that of the open document. -/
theorem DocsInv.keep {h0 : Doc P} {t : List (Doc P)} (h : DocsInv X id hist used keys x (h0 :: t))
    (hn : h0.lt = none) (ha : Alive hist y)
    (hp : ∀ a o, AsOf hist y a → OptionsAsOf used y o → X.same h0.parsed (X.parse a o)) :
    DocsInv X id hist used keys y (h0 :: t) := by
  have h0c : h0.covers y := (h.covers_after List.mem_cons_self (by omega)).2 hn
  refine ⟨h.ids, h.fields, fun d hd => ?_, fun d hd e he => ?_, h.pair, fun v hv => ?_, fun v hv d hd hc a o hva hvo => ?_,
    h.start_alive, h.distinct⟩
  · have := h.start d hd; exact ⟨by omega, this.2⟩
  · have := h.stop d hd e he; exact ⟨this.1, by omega, this.2.2⟩
  · by_cases hvy : v < y
    · exact (h.upTo (fun w a hm hw => hg w a hm (by omega)) (fun w a hm hw => hu w a hm (by omega))).1
    · have : v = y := by omega
      subst this
      exact ⟨fun _ => ha, fun _ => ⟨h0, List.mem_cons_self, h0c⟩⟩
  · by_cases hvy : v < y
    · exact (h.upTo (fun w a hm hw => hg w a hm (by omega)) (fun w a hm hw => hu w a hm (by omega))).2 d hd hc a o hva hvo
    · have : v = y := by omega
      subst this
      rcases List.mem_cons.1 hd with rfl | hd'
      · exact hp a o hva hvo
      · exact absurd ((h.covers_after hd (by omega)).1 hc) (h.open_head hd')

/-- The invariant when a new document starts at `y`. -/
theorem DocsInv.push (h : DocsInv X id hist used keys x D) {p : P} {a0 : Dict} (hh : (hist.map Prod.fst).Nodup)
    (hun : (used.map Prod.fst).Nodup) {o0 : ParsingOptions} (h1 : AsOf hist y a0) (h2 : a0 ≠ [])
    (h3 : OptionsAsOf used y o0) (h4 : p = X.parse a0 o0)
    (hd : ∀ d ∈ D, d.lt = none → X.eq d.parsed p = false ∧ (y ∉ hist.map Prod.fst → X.eqSame d.parsed p = false)) :
    DocsInv X id hist used keys y (⟨id, y, y, none, none, p⟩ :: closeAt y D) := by
  have hstart : ∀ d ∈ closeAt y D, d.gte < y ∧ keys d.gte := by
    intro d hm
    rcases mem_closeAt hm with hm | ⟨d0, hq, _, rfl⟩
    · have := h.start d hm; exact ⟨by omega, this.2⟩
    · have := h.start d0 hq; exact ⟨by simp only; omega, this.2⟩
  have hstop : ∀ d ∈ closeAt y D, ∃ e, d.lt = some e ∧ d.gte < e ∧ e ≤ y ∧ keys e := by
    intro d hm
    cases hlt : d.lt with
    | none =>
      exfalso
      cases D with
      | nil => cases hm
      | cons a t =>
        rcases List.mem_cons.1 hm with hm | hm
        · split at hm
          · rw [hm] at hlt; cases hlt
          · rename_i ha; rw [← hm] at ha; simp [hlt] at ha
        · exact absurd hlt (h.open_head hm)
    | some e =>
      refine ⟨e, rfl, ?_⟩
      rcases mem_closeAt hm with hm | ⟨d0, hq, _, rfl⟩
      · have := h.stop d hm e hlt; exact ⟨this.1, by omega, this.2.2⟩
      · have := h.start d0 hq
        cases hlt
        exact ⟨by simp only; omega, by omega, hk⟩
  constructor
  · intro d hm
    rcases List.mem_cons.1 hm with rfl | hm
    · rfl
    rcases mem_closeAt hm with hm | ⟨d0, hq, _, rfl⟩
    · exact h.ids d hm
    · exact h.ids d0 hq
  · intro d hm
    rcases List.mem_cons.1 hm with rfl | hm
    · exact ⟨rfl, rfl⟩
    rcases mem_closeAt hm with hm | ⟨d0, hq, _, rfl⟩
    · exact h.fields d hm
    · exact ⟨(h.fields d0 hq).1, rfl⟩
  · intro d hm
    rcases List.mem_cons.1 hm with rfl | hm
    · exact ⟨Int.le_refl y, hk⟩
    · have := hstart d hm; exact ⟨by omega, this.2⟩
  · intro d hm e he
    rcases List.mem_cons.1 hm with rfl | hm
    · cases he
    · obtain ⟨e', h5, h6⟩ := hstop d hm
      rw [h5] at he; cases he; exact h6
  · refine List.pairwise_cons.2 ⟨fun b hb => ?_, ?_⟩
    · obtain ⟨e', h5, h6⟩ := hstop b hb
      exact ⟨e', h5, h6.2.1⟩
    · cases D with
      | nil => exact .nil
      | cons a t =>
        have := List.pairwise_cons.1 h.pair
        refine List.pairwise_cons.2 ⟨fun b hb => ?_, this.2⟩
        obtain ⟨e, h1, h2⟩ := this.1 b hb
        exact ⟨e, h1, by split <;> exact h2⟩
  · intro v hv
    by_cases hvy : v < y
    · rw [← (h.upTo (v := v) (fun w a hm hw => hg w a hm (by omega)) (fun w a hm hw => hu w a hm (by omega))).1,
        ← covers_closeAt hvy D]
      constructor
      · rintro ⟨d, hm, hc⟩
        rcases List.mem_cons.1 hm with rfl | hm
        · have := hc.1; simp only at this; omega
        · exact ⟨d, hm, hc⟩
      · rintro ⟨d, hm, hc⟩; exact ⟨d, List.mem_cons_of_mem _ hm, hc⟩
    · have : v = y := by omega
      subst this
      exact ⟨fun _ => ⟨a0, h1, h2⟩, fun _ => ⟨_, List.mem_cons_self, Int.le_refl v, fun e he => by cases he⟩⟩
  · intro v hv d hm hc a o ha ho
    by_cases hvy : v < y
    · rcases List.mem_cons.1 hm with rfl | hm
      · have := hc.1; simp only at this; omega
      · have hu' := (h.upTo (v := v) (fun w a hm hw => hg w a hm (by omega)) (fun w a hm hw => hu w a hm (by omega))).2
        rcases mem_closeAt hm with hm | ⟨d0, hq, he, rfl⟩
        · exact hu' d hm hc a o ha ho
        · exact hu' d0 hq ⟨hc.1, by simp [he]⟩ a o ha ho
    · have : v = y := by omega
      subst this
      rcases List.mem_cons.1 hm with rfl | hm
      · rw [h1.unique hh ha, h3.unique hun ho] at h4
        exact .inl h4
      · obtain ⟨e, h5, h6⟩ := hstop d hm
        have := hc.2 e h5; omega
  · intro d hm a o ha ho
    rcases List.mem_cons.1 hm with rfl | hm
    · rw [h1.unique hh ha, h3.unique hun ho] at h4
      exact h4
    · rcases mem_closeAt hm with hm | ⟨d0, hq, _, rfl⟩
      · exact h.start_alive d hm a o ha ho
      · exact h.start_alive d0 hq a o ha ho
  · refine List.pairwise_cons.2 ⟨fun b hb he => ?_, ?_⟩
    · rcases mem_closeAt hb with hb | ⟨d0, hq, h6, rfl⟩
      · have := (h.stop b hb y he).2.1; omega
      · exact hd d0 hq h6
    · cases D with
      | nil => exact .nil
      | cons a t =>
        have := List.pairwise_cons.1 h.distinct
        refine List.pairwise_cons.2 ⟨fun b hb he => ?_, this.2⟩
        have h1 := this.1 b hb
        split at he <;> split <;> first | exact h1 he | (exact h1 he)

end
end
end Splitgill
