import Verif.Proof.Text
import Verif.Proof.Geo2
import Verif.Spec.Places
/-!
# Lemmas: the places in parsed data
-/

namespace Splitgill

variable {E : ParseEnv} {o : ParsingOptions}

theorem addHints_exact : ∀ {hs : List (PyStr × (PyStr × PyStr))} {p p' : Dict}, addHints hs p = .ok p' → (akeys hs).Nodup →
    ∀ k, (aget k hs = none ∧ aget k p' = aget k p) ∨ ∃ g dw, aget k hs = some g ∧ aget k p = some (.dict dw) ∧
      aget k p' = some (.dict (aupdate dw (geoDict g)))
  | [], p, _, h, _, k => by cases h; exact .inl ⟨rfl, rfl⟩
  | (k', g) :: r, p, p', h, hn, k => by
    have hn' : k' ∉ akeys r ∧ (akeys r).Nodup := by simpa [akeys] using hn
    rw [addHints] at h
    split at h
    · cases h
    · rename_i d hd
      have ih := addHints_exact h hn'.2 k
      rw [aget_aset] at ih
      by_cases e : k = k'
      · subst e
        have hr : aget k r = none := aget_eq_none_iff.2 hn'.1
        rw [if_pos rfl, hr] at ih
        refine .inr ⟨g, d, by rw [aget_cons, if_pos rfl], hd, ?_⟩
        rcases ih with ⟨_, ih⟩ | ⟨_, _, ih, _⟩
        · exact ih
        · cases ih
      · rw [if_neg e] at ih
        have e' : aget k ((k', g) :: r) = aget k r := by
          rw [aget_cons]
          first
            | rw [if_neg e]
            | rw [if_neg (fun h => e h.symm)]
        rw [e']
        exact ih
    · cases h

theorem matchHints_nodup (E : ParseEnv) (d : Dict) : ∀ (hs : List GeoFieldHint) (acc : List (PyStr × (PyStr × PyStr))),
    (akeys acc).Nodup → (akeys (hs.foldl (hintStep E d) acc)).Nodup
  | [], _, h => h
  | a :: hs, acc, h => by
    refine matchHints_nodup E d hs _ ?_
    unfold hintStep
    split
    · exact nodup_aset h
    · exact h

/-- What the hints find. -/
theorem aget_matchHints (E : ParseEnv) (d : Dict) (k : PyStr) (g : PyStr × PyStr) : ∀ (hs : List GeoFieldHint)
    (acc : List (PyStr × (PyStr × PyStr))), (hs.map GeoFieldHint.latField).Nodup →
    (aget k (hs.foldl (hintStep E d) acc) = some g ↔ (∃ h ∈ hs, h.latField = k ∧ matchHint E d h = some g) ∨
      (aget k acc = some g ∧ ∀ h ∈ hs, h.latField = k → matchHint E d h = none))
  | [], acc, _ => by simp
  | a :: hs, acc, hn => by
    have hn' : a.latField ∉ hs.map GeoFieldHint.latField ∧ (hs.map GeoFieldHint.latField).Nodup := by simpa using hn
    rw [List.foldl_cons, aget_matchHints E d k g hs _ hn'.2]
    have hstep : aget k (hintStep E d acc a) = if k = a.latField ∧ (matchHint E d a).isSome = true then matchHint E d a else aget k acc := by
      unfold hintStep
      cases hm : matchHint E d a with
      | none => simp
      | some g' =>
        dsimp only
        rw [aget_aset]
        by_cases e : k = a.latField
        · rw [if_pos e, if_pos ⟨e, rfl⟩]
        · rw [if_neg e, if_neg (fun h => e h.1)]
    rw [hstep]
    constructor
    · rintro (⟨h, hh, h1, h2⟩ | ⟨h1, h2⟩)
      · exact .inl ⟨h, List.mem_cons_of_mem _ hh, h1, h2⟩
      · split at h1
        · rename_i hc
          exact .inl ⟨a, List.mem_cons_self, hc.1.symm, h1⟩
        · rename_i hc
          refine .inr ⟨h1, fun h hh e => ?_⟩
          rcases List.mem_cons.1 hh with rfl | hh
          · cases hm : matchHint E d h with
            | none => rfl
            | some x => exact absurd ⟨e.symm, by rw [hm]; rfl⟩ hc
          · exact h2 h hh e
    · rintro (⟨h, hh, h1, h2⟩ | ⟨h1, h2⟩)
      · rcases List.mem_cons.1 hh with rfl | hh
        · refine .inr ⟨?_, fun h' hh' e => ?_⟩
          · rw [if_pos ⟨h1.symm, by rw [h2]; rfl⟩, h2]
          · exact absurd (List.mem_map.2 ⟨h', hh', e.trans h1.symm⟩) hn'.1
        · exact .inl ⟨h, hh, h1, h2⟩
      · refine .inr ⟨?_, fun h hh e => h2 h (List.mem_cons_of_mem _ hh) e⟩
        rw [if_neg]
        · exact h1
        · rintro ⟨e, h3⟩
          rw [h2 a List.mem_cons_self e.symm] at h3
          cases h3

theorem matchHints_keys (E : ParseEnv) (d : Dict) (k : PyStr) (hs : List GeoFieldHint) :
    k ∈ akeys (matchHints E d hs) ↔ ∃ g, ∃ h ∈ hs, h.latField = k ∧ matchHint E d h = some g := by
  have key : ∀ (hs : List GeoFieldHint) (acc : List (PyStr × (PyStr × PyStr))), k ∈ akeys (hs.foldl (hintStep E d) acc) ↔
      k ∈ akeys acc ∨ ∃ g, ∃ h ∈ hs, h.latField = k ∧ matchHint E d h = some g := by
    intro hs
    induction hs with
    | nil => intro acc; simp
    | cons a hs ih =>
      intro acc
      rw [List.foldl_cons, ih]
      have hstep : k ∈ akeys (hintStep E d acc a) ↔ k ∈ akeys acc ∨ ∃ g, a.latField = k ∧ matchHint E d a = some g := by
        unfold hintStep
        cases hm : matchHint E d a with
        | none => simp
        | some g =>
          dsimp only
          rw [← aget_isSome_iff, aget_aset, ← aget_isSome_iff]
          by_cases e : k = a.latField
          · rw [if_pos e]; simp [e]
          · rw [if_neg e]; simp [show ¬ a.latField = k from fun h => e h.symm]
      rw [hstep]
      constructor
      · rintro ((h | ⟨g, h1, h2⟩) | ⟨g, h, h1, h2⟩)
        · exact .inl h
        · exact .inr ⟨g, a, List.mem_cons_self, h1, h2⟩
        · exact .inr ⟨g, h, List.mem_cons_of_mem _ h1, h2⟩
      · rintro (h | ⟨g, h, h1, h2⟩)
        · exact .inl (.inl h)
        · rcases List.mem_cons.1 h1 with rfl | h1
          · exact .inl (.inr ⟨g, h2⟩)
          · exact .inr ⟨g, h, h1, h2⟩
  have := key hs []
  simpa [akeys, matchHints] using this

/-- What is at the keys of a parsed dict. -/
theorem assemble_exact {c : Bool} {d : Dict} {items x : PResult Dict} (hi : parseItems E o d = .ok items)
    (h : assembleDict E o c d items = .ok x) (hn : (akeys d).Nodup) (hf : ∀ k ∈ akeys d, FieldName k) (k : PyStr) :
    (k ∈ geoTypes → ((∀ g, (if c = true then matchGeojson E d else none) = some g → aget k x.parsed = aget k (geoDict g)) ∧
      ((if c = true then matchGeojson E d else none) = none → aget k x.parsed = none))) ∧
    (k ∉ geoTypes → (aget k d = none → aget k x.parsed = none) ∧ ∀ v, aget k d = some v → ∃ y, parseInner E o false v = .ok y ∧
      ((aget k (matchHints E d o.geoHints) = none ∧ aget k x.parsed = y.parsed) ∨
        ∃ g dw, aget k (matchHints E d o.geoHints) = some g ∧ y.parsed = some (.dict dw) ∧
          aget k x.parsed = some (.dict (aupdate dw (geoDict g))))) := by
  unfold assembleDict at h
  simp only [] at h
  split at h
  · cases h
  · rename_i p' hp
    cases h
    have hni := (parseItems_keys hi).nodup hn
    have hex := addHints_exact hp (matchHints_nodup E d o.geoHints [] (by simp [akeys])) k
    rw [aget_aupdate k _ _ hni] at hex
    constructor
    · intro hk
      have hitems : aget k items.parsed = none := by
        refine aget_eq_none_iff.2 (fun hm => ?_)
        exact (hf k ((parseItems_keys hi).subset hm)).not_geo hk
      rw [hitems] at hex
      constructor
      · intro g hg
        rw [hg] at hex
        have hpl : aget k (geoDict g) = some (.str g.1) ∨ aget k (geoDict g) = some (.str g.2) := by
          have h4 : k = "_gp".toList ∨ k = "_gs".toList := by simpa [geoTypes] using hk
          rcases h4 with rfl | rfl
          · exact .inl rfl
          · exact .inr rfl
        rcases hex with ⟨_, e⟩ | ⟨g', dw, _, e, _⟩
        · exact e
        · have e' : aget k (geoDict g) = some (.dict dw) := e
          rcases hpl with h | h <;> rw [h] at e' <;> cases e'
      · intro hg
        rw [hg] at hex
        rcases hex with ⟨_, e⟩ | ⟨g', dw, _, e, _⟩
        · exact e
        · cases e
    · intro hk
      have hbase : aget k (((if c = true then matchGeojson E d else none).map geoDict).getD []) = none := by
        cases (if c = true then matchGeojson E d else none) with
        | none => rfl
        | some g => exact aget_eq_none_iff.2 (by rw [Option.map_some, Option.getD_some, akeys_geoDict]; exact hk)
      rw [hbase] at hex
      constructor
      · intro hd
        have hitems : aget k items.parsed = none :=
          aget_eq_none_iff.2 (fun hm => (aget_eq_none_iff.1 hd) ((parseItems_keys hi).subset hm))
        rw [hitems] at hex
        rcases hex with ⟨_, e⟩ | ⟨g', dw, _, e, _⟩
        · exact e
        · cases e
      · intro v hv
        obtain ⟨y, h1, h2⟩ := parseItems_get hi hn hv
        refine ⟨y, h1, ?_⟩
        rw [h2] at hex
        rcases hex with ⟨e0, e⟩ | ⟨g', dw, e0, e, e1⟩
        · refine .inl ⟨e0, e.trans ?_⟩
          cases y.parsed <;> rfl
        · refine .inr ⟨g', dw, e0, ?_, e1⟩
          cases hy : y.parsed with
          | none => rw [hy] at e; cases e
          | some w => rw [hy] at e; exact e

/-- The place of a value itself. -/
def ownPlace (E : ParseEnv) (o : ParsingOptions) : Value → Option (PyStr × PyStr)
  | .dict d => matchGeojson E d
  | v => if v.isIndexed then E.wkt (textOf E o v) else none

/-- The place at a path of a value. -/
def placeIn (E : ParseEnv) (o : ParsingOptions) : Path → Value → Option (PyStr × PyStr)
  | [], v => ownPlace E o v
  | .key k :: p, .dict d =>
    match aget k d with
    | none => none
    | some w => (if p = [] then aget k (matchHints E d o.geoHints) else none).or (placeIn E o p w)
  | .idx i :: p, .list l =>
    match l[i]? with
    | none => none
    | some w => placeIn E o p w
  | _ :: _, _ => none

theorem placeIn_scalar_cons {v : Value} (hv : v.isScalar = true) (a : PathEl) (p : Path) : placeIn E o (a :: p) v = none := by
  cases a <;> cases v <;> first | rfl | cases hv

theorem aget_geo_parseValue {t : PyStr} (ht : t ∈ geoTypes) (v : Value) :
    aget t (parseValue E o v) = (E.wkt (textOf E o v)).bind (fun g => aget t (geoDict g)) := by
  have h4 : t = "_gp".toList ∨ t = "_gs".toList := by simpa [geoTypes] using ht
  have hb : t ≠ "_b".toList ∧ t ≠ "_n".toList ∧ t ≠ "_d".toList ∧ t ≠ "_u".toList ∧ t ≠ "_t".toList ∧ t ≠ "_k".toList := by
    rcases h4 with rfl | rfl <;> decide
  unfold parseValue
  dsimp only
  rw [aget_asetOpt, if_neg (show t ≠ PType.date.name from hb.2.2.1), aget_asetOpt, if_neg (show t ≠ PType.number.name from hb.2.1),
    aget_asetOpt, if_neg (show t ≠ PType.boolean.name from hb.1), strValue_eq]
  cases E.wkt (textOf E o v) with
  | none =>
    dsimp only [Option.bind_none]
    exact aget_eq_none_iff.2 (by
      simp only [akeys, List.map_cons, List.map_nil, List.mem_cons, List.not_mem_nil, or_false, not_or]
      exact ⟨hb.2.2.2.1, hb.2.2.2.2.1, hb.2.2.2.2.2⟩)
  | some g =>
    dsimp only [Option.bind_some]
    rw [aget_aupdate t _ _ (by rw [akeys_geoDict]; exact geoTypes_nodup)]
    rcases h4 with rfl | rfl <;> rfl

theorem aget_geoDict {t : PyStr} (ht : t ∈ geoTypes) (g : PyStr × PyStr) :
    ∃ s, aget t (geoDict g) = some (.str s) := by
  have h4 : t = "_gp".toList ∨ t = "_gs".toList := by simpa [geoTypes] using ht
  rcases h4 with rfl | rfl
  · exact ⟨_, rfl⟩
  · exact ⟨_, rfl⟩

/-- A parsed dict, without its own place. -/
theorem assembled_field {t : PyStr} (ht : t ∈ geoTypes) {d : Dict} {parsed : Dict} (hw : (Value.dict d).wf = true) (hf : FieldNames (.dict d))
    (hgeo : ∀ k ∈ geoTypes, ∀ y, aget k parsed = some y → y.isScalar = true)
    (hex : ∀ k, k ∉ geoTypes → (aget k d = none → aget k parsed = none) ∧ ∀ v, aget k d = some v → ∃ y, parseInner E o false v = .ok y ∧
      ((aget k (matchHints E d o.geoHints) = none ∧ aget k parsed = y.parsed) ∨
        ∃ g dw, aget k (matchHints E d o.geoHints) = some g ∧ y.parsed = some (.dict dw) ∧
          aget k parsed = some (.dict (aupdate dw (geoDict g)))))
    (ih : ∀ k v, (k, v) ∈ d → v.wf = true → FieldNames v → ∀ (p : Path) c x pw, parseInner E o c v = .ok x → x.parsed = some pw →
      getAt (p ++ [.key t]) pw = (placeIn E o p v).bind (fun g => aget t (geoDict g))) (a : PathEl) (p : Path) :
    getAt (a :: p ++ [.key t]) (.dict parsed) = (placeIn E o (a :: p) (.dict d)).bind (fun g => aget t (geoDict g)) := by
  have hw' := wf_dict_iff.1 hw
  have hcons : ∀ p : Path, ∃ b q, p ++ [PathEl.key t] = b :: q := by
    intro p
    cases p with
    | nil => exact ⟨_, _, rfl⟩
    | cons b q => exact ⟨b, _, rfl⟩
  cases a with
  | idx i => rfl
  | key k =>
    rw [List.cons_append, getAt, placeIn]
    by_cases hk : k ∈ geoTypes
    · have hd : aget k d = none := aget_eq_none_iff.2 (fun hm => (hf.dict k hm).not_geo hk)
      rw [hd]
      cases hq : aget k parsed with
      | none => rfl
      | some y =>
        obtain ⟨b, q, e⟩ := hcons p
        show getAt (p ++ [.key t]) y = none
        rw [e]
        exact getAt_scalar_cons (hgeo k hk y hq)
    · obtain ⟨h1, h2⟩ := hex k hk
      cases hd : aget k d with
      | none => rw [h1 hd]; rfl
      | some v =>
        have hm := aget_mem hd
        obtain ⟨y, hy, h3⟩ := h2 v hd
        have ih' := fun p c x pw => ih k v hm (hw'.2 k v hm) (hf.item hw'.1 hm) p c x pw
        dsimp only
        rcases h3 with ⟨h3, h4⟩ | ⟨g, dw, h3, h4, h5⟩
        · rw [h3, h4]
          cases hyp : y.parsed with
          | some w =>
            show getAt (p ++ [.key t]) w = _
            rw [ih' p false y w hy hyp]
            cases p <;> rfl
          | none =>
            -- an empty dict or list
            have hv : ∀ p, placeIn E o p v = none := by
              intro p
              cases v with
              | dict e =>
                cases e with
                | nil => cases p with
                  | nil => rfl
                  | cons a p => cases a <;> rfl
                | cons a e =>
                  rw [parseInner] at hy
                  split at hy
                  · cases hy
                  · split at hy <;> cases hy
                    cases hyp
              | list e =>
                cases e with
                | nil => cases p with
                  | nil => rfl
                  | cons a p => cases a <;> rfl
                | cons a e =>
                  rw [parseInner] at hy
                  split at hy <;> cases hy
                  cases hyp
              | str s =>
                rw [parseInner] at hy
                split at hy <;> cases hy <;> cases hyp
              | _ => cases hy; cases hyp
            rw [hv, ite_self]; rfl
        · rw [h3, h5]
          have hup : ∀ k', aget k' (aupdate dw (geoDict g)) = (aget k' (geoDict g)).or (aget k' dw) := by
            intro k'
            rw [aget_aupdate k' _ _ (by rw [akeys_geoDict]; exact geoTypes_nodup)]
          cases p with
          | nil =>
            show (aget t (aupdate dw (geoDict g))).bind (getAt []) = aget t (geoDict g)
            rw [hup]
            obtain ⟨s, hs⟩ := aget_geoDict ht g
            rw [hs]
            rfl
          | cons b q =>
            rw [if_neg (by simp), Option.none_or, ← ih' (b :: q) false y (.dict dw) hy h4]
            cases b with
            | idx i => rfl
            | key k' =>
              show (aget k' (aupdate dw (geoDict g))).bind (getAt (q ++ [.key t])) = (aget k' dw).bind (getAt (q ++ [.key t]))
              rw [hup]
              by_cases hk' : k' ∈ geoTypes
              · obtain ⟨s, hs⟩ := aget_geoDict hk' g
                rw [hs]
                obtain ⟨b, q', e⟩ := hcons q
                have e1 : getAt (q ++ [.key t]) (.str s) = none := by rw [e]; exact getAt_scalar_cons rfl
                show getAt (q ++ [.key t]) (.str s) = _
                rw [e1]
                have e2 := ih' (.key k' :: q) false y (.dict dw) hy h4
                have e3 : placeIn E o (.key k' :: q) v = none := by
                  cases v with
                  | dict e =>
                    have : aget k' e = none := aget_eq_none_iff.2 (fun hm' => ((hf.item hw'.1 hm).dict k' hm').not_geo hk')
                    simp only [placeIn, this]
                  | list l => rfl
                  | _ => exact placeIn_scalar_cons rfl _ _
                rw [e3] at e2
                exact e2.symm
              · have : aget k' (geoDict g) = none := aget_eq_none_iff.2 (by rw [akeys_geoDict]; exact hk')
                rw [this]
                rfl

theorem assembled_place {t : PyStr} (ht : t ∈ geoTypes) {d : Dict} {parsed : Dict} (hw : (Value.dict d).wf = true) (hf : FieldNames (.dict d))
    (hex : ∀ k, (k ∈ geoTypes → ((∀ g, (if true = true then matchGeojson E d else none) = some g → aget k parsed = aget k (geoDict g)) ∧
        ((if true = true then matchGeojson E d else none) = none → aget k parsed = none))) ∧
      (k ∉ geoTypes → (aget k d = none → aget k parsed = none) ∧ ∀ v, aget k d = some v → ∃ y, parseInner E o false v = .ok y ∧
      ((aget k (matchHints E d o.geoHints) = none ∧ aget k parsed = y.parsed) ∨
        ∃ g dw, aget k (matchHints E d o.geoHints) = some g ∧ y.parsed = some (.dict dw) ∧
          aget k parsed = some (.dict (aupdate dw (geoDict g))))))
    (ih : ∀ k v, (k, v) ∈ d → v.wf = true → FieldNames v → ∀ (p : Path) c x pw, parseInner E o c v = .ok x → x.parsed = some pw →
      getAt (p ++ [.key t]) pw = (placeIn E o p v).bind (fun g => aget t (geoDict g))) (p : Path) :
    getAt (p ++ [.key t]) (.dict parsed) = (placeIn E o p (.dict d)).bind (fun g => aget t (geoDict g)) := by
  cases p with
  | nil =>
    obtain ⟨h1, h2⟩ := (hex t).1 ht
    rw [if_pos rfl] at h1 h2
    rw [List.nil_append, getAt, placeIn, ownPlace]
    cases hg : matchGeojson E d with
    | none => rw [h2 hg]; rfl
    | some g =>
      rw [h1 g hg]
      obtain ⟨s, hs⟩ := aget_geoDict ht g
      dsimp only [Option.bind_some]
      rw [hs]
      rfl
  | cons a p =>
    refine assembled_field ht hw hf (fun k hk y hy => ?_) (fun k hk => (hex k).2 hk) ih a p
    obtain ⟨h1, h2⟩ := (hex k).1 hk
    rw [if_pos rfl] at h1 h2
    cases hg : matchGeojson E d with
    | none => rw [h2 hg] at hy; cases hy
    | some g =>
      rw [h1 g hg] at hy
      obtain ⟨s, hs⟩ := aget_geoDict hk g
      rw [hs] at hy
      cases hy
      rfl

/-- What is found at a path of parsed data, for a type of places. -/
theorem parseInner_place {t : PyStr} (ht : t ∈ geoTypes) : ∀ v : Value, v.wf = true → FieldNames v → ∀ (p : Path) c x pw,
    parseInner E o c v = .ok x → x.parsed = some pw →
    getAt (p ++ [.key t]) pw = (placeIn E o p v).bind (fun g => aget t (geoDict g)) := by
  have hnone : ∀ (v : Value) (p : Path), v.isScalar = true → getAt (p ++ [.key t]) v = none := by
    intro v p hv
    cases p <;> exact getAt_scalar_cons hv
  have hu : ∀ (v : Value) (p : Path), v.isScalar = true → getAt (p ++ [.key t]) (.dict [("_u".toList, v)]) = none := by
    intro v p hv
    have h4 : t = "_gp".toList ∨ t = "_gs".toList := by simpa [geoTypes] using ht
    have e : ∀ k, aget k [("_u".toList, v)] = if k = "_u".toList then some v else none := by
      intro k
      rw [aget_cons]
      rfl
    cases p with
    | nil =>
      rw [List.nil_append, getAt, e, if_neg (by rcases h4 with rfl | rfl <;> decide)]
      rfl
    | cons a p =>
      cases a with
      | idx i => rfl
      | key k =>
        rw [List.cons_append, getAt, e]
        split
        · exact hnone v p hv
        · rfl
  have hsc : ∀ v : Value, v.isScalar = true → v.isIndexed = true → ∀ p,
      getAt (p ++ [.key t]) (.dict (parseValue E o v)) = (placeIn E o p v).bind (fun g => aget t (geoDict g)) := by
    intro v hv hi p
    cases p with
    | nil =>
      rw [List.nil_append, getAt, aget_geo_parseValue ht]
      have : placeIn E o [] v = E.wkt (textOf E o v) := by
        cases v <;> first | (exact absurd hv Bool.false_ne_true) | (rw [placeIn]; simp only [ownPlace, hi, if_true])
      rw [this]
      cases (E.wkt (textOf E o v)).bind (fun g => aget t (geoDict g)) <;> rfl
    | cons a p =>
      rw [placeIn_scalar_cons hv]
      cases a with
      | idx i => rfl
      | key k =>
        rw [List.cons_append, getAt]
        cases hk : aget k (parseValue E o v) with
        | none => rfl
        | some y => exact hnone y p (parseValue_scalar hv hk)
  have hempty : ∀ (v : Value), v.isScalar = true → v.isIndexed = false → ∀ p, (placeIn E o p v).bind (fun g => aget t (geoDict g)) = none := by
    intro v hv hi p
    cases p with
    | nil =>
      have : placeIn E o [] v = none := by
        cases v <;> first | (exact absurd hv Bool.false_ne_true) | (rw [placeIn]; simp only [ownPlace, hi]; rfl)
      rw [this]; rfl
    | cons a p => rw [placeIn_scalar_cons hv]; rfl
  apply Value.ind
  · intro _ _ p c x pw h hx
    rw [hempty _ rfl rfl]
    cases h
    cases c <;> cases hx
    · exact hu _ p rfl
    · exact hnone _ p rfl
  · intro b _ _ p c x pw h hx
    cases h; cases hx
    exact hsc _ rfl rfl p
  · intro b _ _ p c x pw h hx
    cases h; cases hx
    exact hsc _ rfl rfl p
  · intro b _ _ p c x pw h hx
    cases h; cases hx
    exact hsc _ rfl rfl p
  · intro b _ _ p c x pw h hx
    cases hb : b.isEmpty with
    | true =>
      rw [hempty _ rfl (by simp [Value.isIndexed, hb])]
      rw [parseInner, if_pos hb] at h
      cases h
      cases c <;> cases hx
      · exact hu _ p rfl
      · exact hnone _ p rfl
    | false =>
      rw [parseInner, if_neg (by simp [hb])] at h
      cases h; cases hx
      exact hsc _ rfl (by simp [Value.isIndexed, hb]) p
  · intro l ih hw hf p c x pw h hx
    cases l with
    | nil =>
      rw [parseInner] at h
      cases h
      cases c with
      | false => cases hx
      | true =>
        cases hx
        rw [hnone _ p rfl]
        cases p with
        | nil => rfl
        | cons a p => cases a <;> rfl
    | cons v0 r =>
      rw [parseInner] at h
      split at h
      · cases h
      · rename_i y hy
        cases h; cases hx
        cases p with
        | nil => rfl
        | cons a p =>
          cases a with
          | key k => rfl
          | idx i =>
            rw [List.cons_append, getAt, placeIn]
            cases hi : (v0 :: r)[i]? with
            | none =>
              have : y.parsed[i]? = none := by
                rw [List.getElem?_eq_none_iff] at hi ⊢
                rw [parseElems_length hy]
                exact hi
              rw [this]
              rfl
            | some v =>
              obtain ⟨z, h1, h2⟩ := parseElems_get hy hi
              have hm := List.mem_of_getElem? hi
              rw [h2]
              show getAt (p ++ [.key t]) (z.parsed.getD .none) = _
              cases hz : z.parsed with
              | some w => exact ih v hm (wf_list_iff.1 hw v hm) (hf.elem hm) p true z w h1 hz
              | none =>
                -- elements of lists always have a value
                exfalso
                cases v with
                | dict e =>
                  cases e with
                  | nil => cases h1; cases hz
                  | cons a e =>
                    rw [parseInner] at h1
                    split at h1
                    · cases h1
                    · split at h1 <;> cases h1
                      cases hz
                | list e =>
                  cases e with
                  | nil => cases h1; cases hz
                  | cons a e =>
                    rw [parseInner] at h1
                    split at h1 <;> cases h1
                    cases hz
                | str s =>
                  rw [parseInner] at h1
                  split at h1 <;> cases h1 <;> cases hz
                | _ => cases h1; cases hz
  · intro d ih hw hf p c x pw h hx
    have hw' := wf_dict_iff.1 hw
    cases d with
    | nil =>
      rw [parseInner] at h
      cases h
      cases c with
      | false => cases hx
      | true =>
        cases hx
        rw [hnone _ p rfl]
        cases p with
        | nil => rfl
        | cons a p => cases a <;> rfl
    | cons v0 r =>
      rw [parseInner] at h
      split at h
      · cases h
      · rename_i items hitems
        split at h
        · cases h
        · rename_i y hy
          cases h; cases hx
          have hex := assemble_exact hitems hy hw'.1 hf.dict
          exact assembled_place ht hw hf hex ih p

theorem matchHint_iff {d : Dict} {h : GeoFieldHint} {g : PyStr × PyStr} : matchHint E d h = some g ↔ HintPlace E d h g := by
  unfold matchHint HintPlace getOrEmpty
  cases h.radiusField with
  | none => exact Iff.rfl
  | some r => cases r <;> exact Iff.rfl

/-- A hint that finds a place has its latitude in the dict. -/
theorem hint_key (hS : E.ScalarHints) {d : Dict} {h : GeoFieldHint} {g : PyStr × PyStr} (hg : matchHint E d h = some g) :
    ∃ w, aget h.latField d = some w := by
  cases hk : aget h.latField d with
  | some w => exact ⟨w, rfl⟩
  | none =>
    have := (hS _ _ _ _ _ hg).2
    simp [getOrEmpty, hk] at this

theorem hinted_nil {v : Value} {g : PyStr × PyStr} : ¬ HintedAt E o v [] g := by
  rintro ⟨p0, x, h, e, _⟩
  cases p0 <;> cases e

theorem hinted_key {d : Dict} {k : PyStr} {p : Path} {g : PyStr × PyStr} : HintedAt E o (.dict d) (.key k :: p) g ↔
    (p = [] ∧ ∃ h ∈ o.geoHints, h.latField = k ∧ matchHint E d h = some g) ∨ ∃ w, aget k d = some w ∧ HintedAt E o w p g := by
  constructor
  · rintro ⟨p0, x, h, e, h1, h2, h3⟩
    cases p0 with
    | nil =>
      cases e; cases h1
      exact .inl ⟨rfl, h, h2, rfl, matchHint_iff.2 h3⟩
    | cons a p0 =>
      cases e
      obtain ⟨w, hw, h1⟩ := Option.bind_eq_some_iff.1 (show (aget k d).bind (getAt p0) = _ from h1)
      exact .inr ⟨w, hw, p0, x, h, rfl, h1, h2, h3⟩
  · rintro (⟨rfl, h, h1, rfl, h3⟩ | ⟨w, hw, p0, x, h, rfl, h1, h2, h3⟩)
    · exact ⟨[], d, h, rfl, rfl, h1, matchHint_iff.1 h3⟩
    · refine ⟨.key k :: p0, x, h, rfl, ?_, h2, h3⟩
      show (aget k d).bind (getAt p0) = _
      rw [hw]
      exact h1

theorem hinted_idx {l : List Value} {i : Nat} {p : Path} {g : PyStr × PyStr} : HintedAt E o (.list l) (.idx i :: p) g ↔
    ∃ w, l[i]? = some w ∧ HintedAt E o w p g := by
  constructor
  · rintro ⟨p0, x, h, e, h1, h2, h3⟩
    cases p0 with
    | nil => cases e
    | cons a p0 =>
      cases e
      obtain ⟨w, hw, h1⟩ := Option.bind_eq_some_iff.1 (show (l[i]?).bind (getAt p0) = _ from h1)
      exact ⟨w, hw, p0, x, h, rfl, h1, h2, h3⟩
  · rintro ⟨w, hw, p0, x, h, rfl, h1, h2, h3⟩
    refine ⟨.idx i :: p0, x, h, rfl, ?_, h2, h3⟩
    show (l[i]?).bind (getAt p0) = _
    rw [hw]
    exact h1

theorem own_cons {v : Value} {a : PathEl} {p : Path} {g : PyStr × PyStr} :
    OwnPlaceAt E o v (a :: p) g ↔ ∃ w, getAt [a] v = some w ∧ OwnPlaceAt E o w p g := by
  unfold OwnPlaceAt
  rw [show a :: p = [a] ++ p from rfl, getAt_append]
  constructor
  · rintro ⟨w, h1, h2⟩
    obtain ⟨y, hy, h1⟩ := Option.bind_eq_some_iff.1 h1
    exact ⟨y, hy, w, h1, h2⟩
  · rintro ⟨y, hy, w, h1, h2⟩
    exact ⟨w, by rw [hy]; exact h1, h2⟩

theorem own_nil {v : Value} {g : PyStr × PyStr} : ownPlace E o v = some g ↔ OwnPlaceAt E o v [] g := by
  have hs : ∀ v : Value, (∀ d, v ≠ .dict d) → ((if v.isIndexed then E.wkt (textOf E o v) else none) = some g ↔ OwnPlaceAt E o v [] g) := by
    intro v hv
    constructor
    · intro h
      split at h
      · rename_i hi
        exact ⟨v, rfl, .inl ⟨hi, h⟩⟩
      · cases h
    · rintro ⟨w, h1, h2⟩
      cases h1
      rcases h2 with ⟨h2, h3⟩ | ⟨x, rfl, _⟩
      · rw [if_pos h2]; exact h3
      · exact absurd rfl (hv x)
  cases v with
  | dict d =>
    show matchGeojson E d = some g ↔ _
    unfold matchGeojson
    constructor
    · intro h
      split at h
      · rename_i hc
        rw [Bool.and_eq_true, ahas_iff, ahas_iff] at hc
        exact ⟨_, rfl, .inr ⟨d, rfl, hc.1, hc.2, h⟩⟩
      · cases h
    · rintro ⟨w, h1, h2⟩
      cases h1
      rcases h2 with ⟨h2, _⟩ | ⟨x, e, h3, h4, h5⟩
      · cases h2
      · cases e
        rw [if_pos (by rw [Bool.and_eq_true, ahas_iff, ahas_iff]; exact ⟨h3, h4⟩)]
        exact h5
  | none => exact hs .none (fun d => by simp)
  | bool b => exact hs (.bool b) (fun d => by simp)
  | int b => exact hs (.int b) (fun d => by simp)
  | float b => exact hs (.float b) (fun d => by simp)
  | str b => exact hs (.str b) (fun d => by simp)
  | list b => exact hs (.list b) (fun d => by simp)

/-- Nothing is at a path that does not go on. -/
theorem placeIn_none {v : Value} {a : PathEl} {p : Path} {g : PyStr × PyStr} (h1 : getAt [a] v = none) (h3 : placeIn E o (a :: p) v = none)
    (h2 : ∀ d k, v = .dict d → a ≠ .key k) :
    placeIn E o (a :: p) v = some g ↔ HintedAt E o v (a :: p) g ∨ ((∀ g', ¬ HintedAt E o v (a :: p) g') ∧ OwnPlaceAt E o v (a :: p) g) := by
  rw [h3, own_cons, h1]
  refine ⟨(nomatch ·), ?_⟩
  rintro (⟨p0, x, h, e, h4, _⟩ | ⟨_, _, h, _⟩)
  · cases p0 with
    | nil => cases h4; cases e; exact absurd rfl (h2 x _ rfl)
    | cons b p0 =>
      obtain ⟨rfl, _⟩ := List.cons.inj e
      rw [show a :: p0 = [a] ++ p0 from rfl, getAt_append, h1] at h4
      cases h4
  · cases h

/-- The place at a path, from the specification. -/
theorem placeIn_iff (hS : E.ScalarHints) (hn : (o.geoHints.map GeoFieldHint.latField).Nodup) {g : PyStr × PyStr} : ∀ (p : Path) (v : Value),
    placeIn E o p v = some g ↔ HintedAt E o v p g ∨ ((∀ g', ¬ HintedAt E o v p g') ∧ OwnPlaceAt E o v p g)
  | [], v => by
    rw [placeIn, own_nil]
    exact ⟨fun h => .inr ⟨fun _ => hinted_nil, h⟩, fun h => h.elim (fun h => (hinted_nil h).elim) (·.2)⟩
  | .key k :: p, .dict d => by
    have ih := fun w => placeIn_iff hS hn (g := g) p w
    have hh : ∀ g, aget k (matchHints E d o.geoHints) = some g ↔ ∃ h ∈ o.geoHints, h.latField = k ∧ matchHint E d h = some g := by
      intro g
      have := aget_matchHints E d k g o.geoHints [] hn
      simpa [aget, matchHints] using this
    simp only [hinted_key, ← hh, own_cons]
    rw [placeIn]
    have e1 : getAt [.key k] (.dict d) = aget k d := by
      show (aget k d).bind (getAt []) = _
      cases aget k d <;> rfl
    rw [e1]
    cases hk : aget k d with
    | none =>
      have hno : aget k (matchHints E d o.geoHints) = none := by
        cases hm : aget k (matchHints E d o.geoHints) with
        | none => rfl
        | some g' =>
          obtain ⟨h, _, rfl, h2⟩ := (hh g').1 hm
          obtain ⟨w, hw⟩ := hint_key hS h2
          rw [hk] at hw
          cases hw
      simp [hno]
    | some w =>
      have es : ∀ (P : Value → Prop), (∃ w', some w = some w' ∧ P w') ↔ P w := by
        intro P
        exact ⟨fun ⟨_, e, h⟩ => by cases e; exact h, fun h => ⟨w, rfl, h⟩⟩
      simp only [es]
      cases hm : aget k (matchHints E d o.geoHints) with
      | none =>
        rw [ite_self, Option.none_or, ih]
        simp
      | some g' =>
        cases p with
        | nil =>
          rw [if_pos rfl, Option.some_or]
          simp only [hinted_nil, or_false, true_and, Option.some.injEq]
          constructor
          · exact .inl
          · rintro (h | ⟨h, _⟩)
            · exact h
            · exact absurd rfl (h g')
        | cons a p =>
          rw [if_neg (by simp), Option.none_or, ih]
          simp
  | .idx i :: p, .list l => by
    have ih := fun w => placeIn_iff hS hn (g := g) p w
    simp only [hinted_idx, own_cons]
    rw [placeIn]
    have e1 : getAt [.idx i] (.list l) = l[i]? := by
      show (l[i]?).bind (getAt []) = _
      cases l[i]? <;> rfl
    rw [e1]
    cases hk : l[i]? with
    | none => simp
    | some w =>
      have es : ∀ (P : Value → Prop), (∃ w', some w = some w' ∧ P w') ↔ P w := by
        intro P
        exact ⟨fun ⟨_, e, h⟩ => by cases e; exact h, fun h => ⟨w, rfl, h⟩⟩
      simp only [es]
      exact ih w
  | .idx i :: p, .dict d => placeIn_none rfl rfl (by rintro _ _ ⟨⟩; try rintro ⟨⟩)
  | .key i :: p, .list d => placeIn_none rfl rfl (by rintro _ _ ⟨⟩; try rintro ⟨⟩)
  | a :: p, .none => placeIn_none (getAt_scalar_cons rfl) (placeIn_scalar_cons rfl _ _) (by rintro _ _ ⟨⟩)
  | a :: p, .bool b => placeIn_none (getAt_scalar_cons rfl) (placeIn_scalar_cons rfl _ _) (by rintro _ _ ⟨⟩)
  | a :: p, .int b => placeIn_none (getAt_scalar_cons rfl) (placeIn_scalar_cons rfl _ _) (by rintro _ _ ⟨⟩)
  | a :: p, .float b => placeIn_none (getAt_scalar_cons rfl) (placeIn_scalar_cons rfl _ _) (by rintro _ _ ⟨⟩)
  | a :: p, .str b => placeIn_none (getAt_scalar_cons rfl) (placeIn_scalar_cons rfl _ _) (by rintro _ _ ⟨⟩)

/-- Is there a place at a path? -/
theorem placeIn_isSome (hS : E.ScalarHints) : ∀ (p : Path) (v : Value),
    (∃ g, placeIn E o p v = some g) ↔ (∃ g, HintedAt E o v p g) ∨ ∃ g, OwnPlaceAt E o v p g := by
  intro p v
  have hcl : ∀ (A B : PyStr × PyStr → Prop), (∃ g, A g ∨ ((∀ g', ¬ A g') ∧ B g)) ↔ (∃ g, A g) ∨ ∃ g, B g := by
    intro A B
    constructor
    · rintro ⟨g, h | ⟨_, h⟩⟩
      · exact .inl ⟨g, h⟩
      · exact .inr ⟨g, h⟩
    · rintro (⟨g, h⟩ | ⟨g, h⟩)
      · exact ⟨g, .inl h⟩
      · by_cases hA : ∃ g, A g
        · obtain ⟨g, h⟩ := hA
          exact ⟨g, .inl h⟩
        · exact ⟨g, .inr ⟨fun g' h' => hA ⟨g', h'⟩, h⟩⟩
  have hnone : ∀ {v : Value} {a : PathEl} {p : Path}, getAt [a] v = none → placeIn E o (a :: p) v = none →
      (∀ d k, v = .dict d → a ≠ .key k) →
      ((∃ g, placeIn E o (a :: p) v = some g) ↔ (∃ g, HintedAt E o v (a :: p) g) ∨ ∃ g, OwnPlaceAt E o v (a :: p) g) := by
    intro v a p h1 h2 h3
    rw [← hcl]
    exact exists_congr (fun g => placeIn_none h1 h2 h3)
  induction p generalizing v with
  | nil =>
    simp only [placeIn, own_nil, hinted_nil, exists_false, false_or]
  | cons a p ih =>
    cases v with
    | dict d =>
      cases a with
      | idx i => exact hnone rfl rfl (by rintro _ _ _ ⟨⟩)
      | key k =>
        have hh : (∃ g, aget k (matchHints E d o.geoHints) = some g) ↔ ∃ g, ∃ h ∈ o.geoHints, h.latField = k ∧ matchHint E d h = some g := by
          rw [← Option.isSome_iff_exists, aget_isSome_iff]
          exact matchHints_keys E d k o.geoHints
        simp only [hinted_key, own_cons]
        rw [placeIn]
        have e1 : getAt [.key k] (.dict d) = aget k d := by
          show (aget k d).bind (getAt []) = _
          cases aget k d <;> rfl
        rw [e1]
        cases hk : aget k d with
        | none =>
          have hno : ¬ ∃ g, ∃ h ∈ o.geoHints, h.latField = k ∧ matchHint E d h = some g := by
            rintro ⟨g, h, _, rfl, h2⟩
            obtain ⟨w, hw⟩ := hint_key hS h2
            rw [hk] at hw
            cases hw
          constructor
          · rintro ⟨g, hg⟩; cases hg
          · rintro (⟨g, ⟨_, h⟩ | ⟨w, h, _⟩⟩ | ⟨g, w, h, _⟩)
            · exact (hno ⟨g, h⟩).elim
            · cases h
            · cases h
        | some w =>
          have es : ∀ (P : Value → Prop), (∃ w', some w = some w' ∧ P w') ↔ P w := by
            intro P
            exact ⟨fun ⟨_, e, h⟩ => by cases e; exact h, fun h => ⟨w, rfl, h⟩⟩
          simp only [es, exists_or]
          cases hm : aget k (matchHints E d o.geoHints) with
          | none =>
            simp only [ite_self, Option.none_or]
            refine (ih w).trans ?_
            have hno : ¬ ∃ g, ∃ h ∈ o.geoHints, h.latField = k ∧ matchHint E d h = some g := by
              rw [← hh, hm]
              rintro ⟨_, h⟩; cases h
            constructor
            · rintro (h | h)
              · exact .inl (.inr h)
              · exact .inr h
            · rintro ((⟨g, _, h⟩ | h) | h)
              · exact (hno ⟨g, h⟩).elim
              · exact .inl h
              · exact .inr h
          | some g' =>
            have hyes := hh.1 ⟨g', hm⟩
            cases p with
            | nil =>
              obtain ⟨g, h⟩ := hyes
              exact ⟨fun _ => .inl (.inl ⟨g, rfl, h⟩), fun _ => ⟨g', rfl⟩⟩
            | cons a p =>
              simp only [reduceCtorEq, if_false, Option.none_or]
              refine (ih w).trans ?_
              simp
    | list l =>
      cases a with
      | key k => exact hnone rfl rfl (by rintro _ _ ⟨⟩)
      | idx i =>
        simp only [hinted_idx, own_cons]
        rw [placeIn]
        have e1 : getAt [.idx i] (.list l) = l[i]? := by
          show (l[i]?).bind (getAt []) = _
          cases l[i]? <;> rfl
        rw [e1]
        cases hk : l[i]? with
        | none => simp
        | some w =>
          have es : ∀ (P : Value → Prop), (∃ w', some w = some w' ∧ P w') ↔ P w := by
            intro P
            exact ⟨fun ⟨_, e, h⟩ => by cases e; exact h, fun h => ⟨w, rfl, h⟩⟩
          simp only [es]
          exact ih w
    | none => exact hnone (getAt_scalar_cons rfl) (placeIn_scalar_cons rfl _ _) (by rintro _ _ ⟨⟩)
    | bool b => exact hnone (getAt_scalar_cons rfl) (placeIn_scalar_cons rfl _ _) (by rintro _ _ ⟨⟩)
    | int b => exact hnone (getAt_scalar_cons rfl) (placeIn_scalar_cons rfl _ _) (by rintro _ _ ⟨⟩)
    | float b => exact hnone (getAt_scalar_cons rfl) (placeIn_scalar_cons rfl _ _) (by rintro _ _ ⟨⟩)
    | str b => exact hnone (getAt_scalar_cons rfl) (placeIn_scalar_cons rfl _ _) (by rintro _ _ ⟨⟩)

/-- What is found at a path of a parsed record, for a type of places. -/
theorem parse_place {t : PyStr} (ht : t ∈ geoTypes) {d : Dict} {pd : ParsedData} (hw : (Value.dict d).wf = true)
    (hf : FieldNames (.dict d)) (h : parse E o d = .ok pd) (p : Path) :
    getAt (p ++ [.key t]) (.dict pd.parsed) = if p = [] then none else (placeIn E o p (.dict d)).bind (fun g => aget t (geoDict g)) := by
  have hw' := wf_dict_iff.1 hw
  obtain ⟨x, hx, h1, _, _⟩ := parse_ok h
  obtain ⟨items, hi, ha⟩ := parseDict_ok hx
  have hex := assemble_exact hi ha hw'.1 hf.dict
  rw [← h1]
  cases p with
  | nil =>
    rw [if_pos rfl, List.nil_append, getAt, ((hex t).1 ht).2 rfl]
    rfl
  | cons a p =>
    rw [if_neg (by simp)]
    refine assembled_field ht hw hf (fun k hk y hy => ?_) (fun k hk => (hex k).2 hk)
      (fun k v hm hwv hfv p c x pw h1 h2 => parseInner_place ht v hwv hfv p c x pw h1 h2) a p
    rw [((hex k).1 hk).2 rfl] at hy
    cases hy

/-- The places of a type that a document has in its fields. -/
theorem places_values {t : PyStr} (ht : t ∈ geoTypes) {d : Dict} {pd : ParsedData} (hw : (Value.dict d).wf = true)
    (hf : FieldNames (.dict d)) (h : parse E o d = .ok pd) (ks : List PyStr) (s : Value) :
    s ∈ esValues (.dict pd.parsed) (ks ++ [t]) ↔ ∃ p g, p ≠ [] ∧ keysOf p = ks ∧ placeIn E o p (.dict d) = some g ∧ aget t (geoDict g) = some s := by
  constructor
  · intro hs
    have hsc := esValues_scalar _ _ hs
    obtain ⟨p, hp, hg⟩ := (mem_esValues hsc.1 hsc.2 _ _).1 hs
    obtain ⟨p0, q, rfl, h1, h2⟩ := keysOf_split p _ _ hp
    rw [getAt_append, Option.bind_eq_some_iff] at hg
    obtain ⟨y, hy, hyq⟩ := hg
    rw [parse_place ht hw hf h] at hy
    split at hy
    · cases hy
    · rename_i hne
      obtain ⟨g, hg, hy⟩ := Option.bind_eq_some_iff.1 hy
      obtain ⟨z, hz⟩ := aget_geoDict ht g
      have hq : q = [] := by
        cases q with
        | nil => rfl
        | cons a q =>
          rw [hz] at hy
          cases hy
          rw [getAt_scalar_cons rfl] at hyq
          cases hyq
      subst hq
      cases hyq
      exact ⟨p0, g, hne, h1, hg, hy⟩
  · rintro ⟨p, g, hne, rfl, hg, hs⟩
    obtain ⟨z, hz⟩ := aget_geoDict ht g
    have hz' := hs
    rw [hz] at hz'
    cases hz'
    rw [mem_esValues rfl (by simp)]
    refine ⟨p ++ [.key t], ?_, ?_⟩
    · rw [keysOf, List.filterMap_append]
      rfl
    · rw [parse_place ht hw hf h, if_neg hne, hg]
      exact hs

theorem keysOf_ne_nil {v w : Value} {p : Path} {d : Dict} (hv : v = .dict d) (h : getAt p v = some w) (hp : p ≠ []) : keysOf p ≠ [] := by
  subst hv
  cases p with
  | nil => exact absurd rfl hp
  | cons a p =>
    cases a with
    | idx i => cases h
    | key k => simp [keysOf, PathEl.name?]

theorem placeIn_path : ∀ (p : Path) (v : Value) (g : PyStr × PyStr), placeIn E o p v = some g → ∃ w, getAt p v = some w
  | [], v, _, _ => ⟨v, rfl⟩
  | .key k :: p, .dict d, g, h => by
    rw [placeIn] at h
    show ∃ w, (aget k d).bind (getAt p) = some w
    cases hk : aget k d with
    | none => rw [hk] at h; cases h
    | some y =>
      rw [hk] at h
      cases p with
      | nil => exact ⟨y, rfl⟩
      | cons a p =>
        dsimp only at h
        rw [if_neg (by simp), Option.none_or] at h
        exact placeIn_path (a :: p) y g h
  | .idx i :: p, .list l, g, h => by
    rw [placeIn] at h
    show ∃ w, (l[i]?).bind (getAt p) = some w
    cases hk : l[i]? with
    | none => rw [hk] at h; cases h
    | some y =>
      rw [hk] at h
      exact placeIn_path p y g h
  | .idx _ :: _, .dict _, _, h => by cases h
  | .key _ :: _, .list _, _, h => by cases h
  | _ :: _, .none, _, h => by rw [placeIn_scalar_cons rfl] at h; cases h
  | _ :: _, .bool _, _, h => by rw [placeIn_scalar_cons rfl] at h; cases h
  | _ :: _, .int _, _, h => by rw [placeIn_scalar_cons rfl] at h; cases h
  | _ :: _, .float _, _, h => by rw [placeIn_scalar_cons rfl] at h; cases h
  | _ :: _, .str _, _, h => by rw [placeIn_scalar_cons rfl] at h; cases h

/-- `has_geo` for a record, with the points or the shapes. -/
theorem anyGeo_parse {t : PType} (ht : t.name ∈ geoTypes) (hE : E.IgnoresOrder) (hS : E.ScalarHints) {d : Dict} {pd : ParsedData} (hw : (Value.dict d).wf = true)
    (hf : FieldNames (.dict d)) (h : parse E o d = .ok pd) :
    (!(esCopied t pd.parsed).isEmpty) = true ↔ ∃ p g, PlaceAt E o d p g := by
  have e : (∃ p g, PlaceAt E o d p g) ↔ ∃ p g, p ≠ [] ∧ placeIn E o p (.dict d) = some g := by
    constructor
    · rintro ⟨p, g, hp, h⟩
      have : ∃ g, placeIn E o p (.dict d) = some g := by
        rw [placeIn_isSome hS]
        rcases h with h | ⟨_, h⟩
        · exact .inl ⟨g, h⟩
        · exact .inr ⟨g, h⟩
      obtain ⟨g, h⟩ := this
      exact ⟨p, g, hp, h⟩
    · rintro ⟨p, g, hp, h⟩
      by_cases hh : ∃ g, HintedAt E o (.dict d) p g
      · obtain ⟨g, hg⟩ := hh
        exact ⟨p, g, hp, .inl hg⟩
      · rcases (placeIn_isSome hS p (.dict d)).1 ⟨g, h⟩ with h | ⟨g, h⟩
        · exact absurd h hh
        · exact ⟨p, g, hp, .inr ⟨fun g' h' => hh ⟨g', h'⟩, h⟩⟩
  rw [e]
  rw [Bool.not_eq_true', List.isEmpty_eq_false_iff]
  constructor
  · intro hp
    obtain ⟨s, hs⟩ := List.exists_mem_of_ne_nil _ hp
    obtain ⟨ks, _, h2⟩ := (mem_esCopied (parsed_wf hE hw h)).1 hs
    obtain ⟨p, g, h3, _, h4, _⟩ := (places_values ht hw hf h ks s).1 h2
    exact ⟨p, g, h3, h4⟩
  · rintro ⟨p, g, h1, h2⟩
    obtain ⟨w, hw'⟩ := placeIn_path _ _ _ h2
    obtain ⟨s, hs⟩ := aget_geoDict ht g
    exact List.ne_nil_of_mem ((mem_esCopied (parsed_wf hE hw h)).2 ⟨keysOf p, keysOf_ne_nil rfl hw' h1,
      (places_values ht hw hf h _ _).2 ⟨p, g, h1, rfl, h2, hs⟩⟩)

/-- `has_geo` for a record. -/
theorem hasGeo_parse (hE : E.IgnoresOrder) (hS : E.ScalarHints) {d : Dict} {pd : ParsedData} (hw : (Value.dict d).wf = true)
    (hf : FieldNames (.dict d)) (h : parse E o d = .ok pd) : existsMatches hasGeo pd.parsed = true ↔ ∃ p g, PlaceAt E o d p g :=
  anyGeo_parse (t := .geoPoint) (by decide) hE hS hw hf h

/-- The values that are copied. -/
theorem copied_parse {t : PType} (ht : t.name ∈ geoTypes) (hE : E.IgnoresOrder) (hS : E.ScalarHints)
    (hn : (o.geoHints.map GeoFieldHint.latField).Nodup) {d : Dict} {pd : ParsedData} (hw : (Value.dict d).wf = true)
    (hf : FieldNames (.dict d)) (h : parse E o d = .ok pd) (x : Value) :
    x ∈ esCopied t pd.parsed ↔ ∃ p g, PlaceAt E o d p g ∧ aget t.name (geoDict g) = some x := by
  rw [mem_esCopied (parsed_wf hE hw h)]
  constructor
  · rintro ⟨ks, _, h2⟩
    obtain ⟨p, g, h3, _, h4, h5⟩ := (places_values ht hw hf h ks x).1 h2
    exact ⟨p, g, ⟨h3, (placeIn_iff hS hn p _).1 h4⟩, h5⟩
  · rintro ⟨p, g, ⟨h1, h2⟩, h3⟩
    have h2 := (placeIn_iff hS hn p _).2 h2
    obtain ⟨w, hw'⟩ := placeIn_path _ _ _ h2
    exact ⟨keysOf p, keysOf_ne_nil rfl hw' h1, (places_values ht hw hf h _ _).2 ⟨p, g, h1, rfl, h2, h3⟩⟩

/-! ## Equal data -/

theorem VR_getD {c : Value → Value → Bool} (h0 : VR c (.str []) (.str [])) {x x' : Dict} (h : VR c (.dict x) (.dict x')) (k : PyStr) :
    VR c ((aget k x).getD (.str [])) ((aget k x').getD (.str [])) := by
  rcases (VR_dict.1 h).2.2 k with ⟨h1, h2⟩ | ⟨v, w, h1, h2, h3⟩
  · rw [h1, h2]; exact h0
  · rw [h1, h2]; exact h3

theorem indexed_sim {v w : Value} (hv : v.isIndexed = true) (h : simScalarEq v w = true) : w.isIndexed = true := by
  cases v <;> cases w <;> first | rfl | (simp [Value.isIndexed] at hv; done) | (simp [simScalarEq, Value.num] at h; done) | skip
  simp only [simScalarEq, decide_eq_true_eq] at h
  subst h
  exact hv

theorem placed_sim (hP : E.PlacesOfEqual) {a b : Dict} (h : VR simScalarEq (.dict a) (.dict b)) (hp : ∃ p g, PlaceAt E o a p g) :
    ∃ p g, PlaceAt E o b p g := by
  obtain ⟨p, g, hne, hp⟩ := hp
  have key : (∃ g, HintedAt E o (.dict b) p g) ∨ ∃ g, OwnPlaceAt E o (.dict b) p g := by
    rcases hp with ⟨p0, x, hh, rfl, h1, h2, h3⟩ | ⟨_, w, h1, h2⟩
    · obtain ⟨x', h4, h5⟩ := VR_getAt h1 h
      obtain ⟨y, rfl⟩ : ∃ y, x' = .dict y := by
        have := h5.2.2
        cases x' <;> first | exact ⟨_, rfl⟩ | (simp [eqWith, simScalarEq, Value.num] at this)
      left
      have h0 : VR simScalarEq (.str []) (.str []) := ⟨rfl, rfl, by decide⟩
      have h6 := VR_getD h0 h5 hh.lonField
      have h7 := VR_getD h0 h5 hh.latField
      have := hP.hint _ _ ((optTruthy hh.radiusField).map (fun r => getOrEmpty r x)) hh.segments
        _ _ ((optTruthy hh.radiusField).map (fun r => getOrEmpty r y)) h6.1 h6.2.1 h6.2.2 h7.1 h7.2.1 h7.2.2
      change (matchHint E x hh).isSome = (matchHint E y hh).isSome at this
      rw [matchHint_iff.2 h3] at this
      obtain ⟨g', hg'⟩ := Option.isSome_iff_exists.1 this.symm
      exact ⟨g', p0, y, hh, rfl, h4, h2, matchHint_iff.1 hg'⟩
    · obtain ⟨w', h4, h5⟩ := VR_getAt h1 h
      right
      rcases h2 with ⟨h2, h3⟩ | ⟨x, rfl, h6, h7, h8⟩
      · have hsc := Value.isScalar_of_isIndexed h2
        have hs := VR_scalar hsc h5
        have := hP.wkt o w w' hs.2
        rw [h3] at this
        obtain ⟨g', hg'⟩ := Option.isSome_iff_exists.1 this.symm
        exact ⟨g', w', h4, .inl ⟨indexed_sim h2 hs.2, hg'⟩⟩
      · obtain ⟨y, rfl⟩ : ∃ y, w' = .dict y := by
          have := h5.2.2
          cases w' <;> first | exact ⟨_, rfl⟩ | (simp [eqWith, simScalarEq, Value.num] at this)
        have := hP.geojson x y h5.1 h5.2.1 h5.2.2
        rw [h8] at this
        obtain ⟨g', hg'⟩ := Option.isSome_iff_exists.1 this.symm
        have hkeys : ∀ k, k ∈ akeys x → k ∈ akeys y := by
          intro k hk
          rw [← aget_isSome_iff] at hk ⊢
          rcases (VR_dict.1 h5).2.2 k with ⟨h1, h2⟩ | ⟨v, w, h1, h2, h3⟩
          · rw [h1] at hk; cases hk
          · rw [h2]; rfl
        exact ⟨g', _, h4, .inr ⟨y, rfl, hkeys _ h6, hkeys _ h7, hg'⟩⟩
  by_cases hh : ∃ g, HintedAt E o (.dict b) p g
  · obtain ⟨g, hg⟩ := hh
    exact ⟨p, g, hne, .inl hg⟩
  · rcases key with key | ⟨g, key⟩
    · exact absurd key hh
    · exact ⟨p, g, hne, .inr ⟨fun g' h' => hh ⟨g', h'⟩, key⟩⟩

theorem PlaceAt.ne_nil {a : Dict} (h : ∃ p g, PlaceAt E o a p g) (hS : E.ScalarHints) : a ≠ [] := by
  rintro rfl
  obtain ⟨p, g, hne, h⟩ := h
  have : ∃ g, placeIn E o p (.dict []) = some g := by
    rw [placeIn_isSome hS]
    rcases h with h | ⟨_, h⟩
    · exact .inl ⟨g, h⟩
    · exact .inr ⟨g, h⟩
  obtain ⟨g, hg⟩ := this
  obtain ⟨w, hw⟩ := placeIn_path _ _ _ hg
  cases p with
  | nil => exact hne rfl
  | cons a p => cases a <;> cases hw

/-! ## What is found -/

section
variable (hE : E.IgnoresOrder) (hS : E.ScalarHints) {db : PyStr} {m : Mongo} {s : Store} {hi : Option Int}
  (hl : LifeInv (fun _ => plainClass.named) db m s hi) (hm : DbOk db m) {es : ES (Option ParsedData)}
  (h2 : LatestOk es) (h3 : IndexesRecords (realParser E) db m ((m.data db).filter (fun r => r.version.isSome)) es)
include hE hS hl hm h2 h3

/-- Which records a query finds, if equal documents are found alike, it is known which parsed data matches, and this is the same for
equal data. -/
theorem LifeInv.asked_equal (Q : QueryEnv) (q : EsQuery) (P : Dict → ParsingOptions → Prop)
    (hsim : ∀ p p' : Dict, VR simScalarEq (.dict p) (.dict p') → q.matches Q p = q.matches Q p')
    (hparse : ∀ o a pd, (Value.dict a).wf = true → FieldNames (.dict a) → parse E o a = .ok pd → (q.matches Q pd.parsed = true ↔ P a o))
    (hP : ∀ o a b, VR simScalarEq (.dict a) (.dict b) → P a o → P b o) (hne' : ∀ a o, P a o → a ≠ []) (v : Int) :
    (foundIds (es.searchFor Q (.version v) q)).Nodup ∧ ∀ id,
      (id ∈ foundIds (es.searchFor Q (.version v) q) ↔ HoldsAsOf s (committedOptionsOf db m) v id P) := by
  have key : ∀ {id a o}, AsOf (s id).committed v a → a ≠ [] → (s id).pending = none →
      OptionsAsOf (effectiveOptions (s id).committed (committedOptionsOf db m)) v o →
      ∃ d, foundFor es (.version v) id = [d] ∧ (q.finds Q d = true ↔ P a o) := by
    intro id a o ha hne hp ho
    have hid : id ∈ (m.data db).map MongoRecord.id := by
      refine mem_ids_of_hist (fun hnil => ?_)
      obtain ⟨y, ⟨w, hw, _⟩, _⟩ := (hl.hist id).asOf ha
      rw [hnil] at hw; cases hw
    obtain ⟨r, hr, rfl⟩ := List.mem_map.1 hid
    have hh := hl.hist r.id
    obtain ⟨b, hb, hba⟩ := hh.asOf ha
    have hr' : r ∈ (m.data db).filter (fun r => r.version.isSome) := List.mem_filter.2 ⟨hr, (hl.pending_iff hr).1 hp⟩
    have hdata : ∀ x ∈ histOf (m.data db) r.id, (Value.dict x.2).wf = true ∧ FieldNames (.dict x.2) :=
      fun x hx => ⟨(hh.left_mem hx).1, (hh.left_mem hx).2⟩
    rw [← effectiveOptions_congr hh.versions] at ho
    obtain ⟨d, p, q1, a0, o0, q0, g1, g2, g3, ⟨u, hu⟩, g4, g5, g6, g7⟩ := found_parse hE hS hm List.filter_sublist h2 h3 hr' hdata hb
      (fun e => hne (hba.nil_iff.1 e)) ho
    obtain ⟨w, hw, _⟩ := hb
    have hse : VR simScalarEq (.dict b) (.dict a) := hba.vr
    refine ⟨d, g1, ?_⟩
    simp only [EsQuery.finds, g2]
    rw [hsim _ _ g6, hparse o b q1 (hdata _ hw).1 (hdata _ hw).2 g3]
    exact ⟨hP o b a hse, hP o a b (plainClass.symm hse)⟩
  have hex : ∀ {id d}, d ∈ (es.search (.version v)).run es → d.id = id → (s id).pending = none ∧ ∃ a o, AsOf (s id).committed v a ∧ a ≠ [] ∧
      OptionsAsOf (effectiveOptions (s id).committed (committedOptionsOf db m)) v o ∧ foundFor es (.version v) id = [d] := by
    intro id d hd hid
    have hmem : d ∈ foundFor es (.version v) id := mem_found_iff.2 ⟨hd, hid⟩
    have h : ¬ (¬ Alive (s id).committed v ∨ (s id).pending ≠ none) := by
      intro h
      rw [hl.finds_nothing hm h2 h3 h] at hmem
      cases hmem
    simp only [not_or, not_not] at h
    obtain ⟨⟨a, ha, hne⟩, hp⟩ := h
    obtain ⟨o, ho⟩ := exists_optionsAsOf (effectiveOptions_ne_nil (s id).committed hm.options.nonempty) v
    refine ⟨hp, a, o, ha, hne, ho, ?_⟩
    obtain ⟨d', e, _⟩ := key ha hne hp ho
    rw [e] at hmem ⊢
    rw [List.mem_singleton.1 hmem]
  refine ⟨found_nodup (fun id => ?_) _, fun id => ⟨fun h => ?_, ?_⟩⟩
  · cases e : foundFor es (.version v) id with
    | nil => exact .inl rfl
    | cons d r =>
      have hd := mem_found_iff.1 (show d ∈ foundFor es (.version v) id by rw [e]; simp)
      obtain ⟨_, _, _, _, _, _, h⟩ := hex hd.1 hd.2
      exact .inr ⟨d, e.symm.trans h⟩
  · obtain ⟨d, hd, hid⟩ := List.mem_map.1 h
    obtain ⟨hd1, hd2⟩ := List.mem_filter.1 hd
    obtain ⟨hp, a, o, ha, hne, ho, hf⟩ := hex hd1 hid
    obtain ⟨d', e, h⟩ := key ha hne hp ho
    rw [hf] at e
    cases e
    exact ⟨hp, a, o, ha, ho, h.1 hd2⟩
  · rintro ⟨hp, a, o, ha, ho, hin⟩
    obtain ⟨d, e, h⟩ := key ha (hne' _ _ hin) hp ho
    have hd := mem_found_iff.1 (show d ∈ foundFor es (.version v) id by rw [e]; simp)
    exact List.mem_map.2 ⟨d, List.mem_filter.2 ⟨hd.1, h.2 hin⟩, hd.2⟩

end

/-- Equal data has values in the same fields. -/
theorem hasValue_sim {a b : Dict} {field : PyStr} (h : VR simScalarEq (.dict a) (.dict b))
    (hp : ∃ p x, fieldPath p = field ∧ getAt p (.dict a) = some x ∧ HasValue x) :
    ∃ p x, fieldPath p = field ∧ getAt p (.dict b) = some x ∧ HasValue x := by
  obtain ⟨p, x, h1, h2, q, w, h3, h4⟩ := hp
  obtain ⟨x', h5, h6⟩ := VR_getAt h2 h
  obtain ⟨w', h7, h8⟩ := VR_getAt h3 h6
  exact ⟨p, x', h1, h5, q, w', h7, indexed_sim h4 (VR_scalar (Value.isScalar_of_isIndexed h4) h8).2⟩

theorem hasValue_ne_nil {a : Dict} {field : PyStr} (h : ∃ p x, fieldPath p = field ∧ getAt p (.dict a) = some x ∧ HasValue x) : a ≠ [] := by
  obtain ⟨p, x, g1, g2, p', w, g3, g4⟩ := h
  rintro rfl
  cases p with
  | nil =>
    cases g2
    cases p' with
    | nil => cases g3; cases g4
    | cons x p => cases x <;> simp [getAt, aget] at g3
  | cons x p => cases x <;> simp [getAt, aget] at g2

end Splitgill
