import Verif.Proof.EndToEnd3
import Verif.Proof.Query3
import Verif.Proof.Copied
import Verif.Spec.Filter
import Verif.Props.Query
/-!
# Lemmas: queries do not see the order of keys, nor which of two equal numbers is stored
-/

namespace Splitgill
open Splitgill.Props

theorem esValues_scalar {s : Value} : ∀ (v : Value) ks, s ∈ esValues v ks → s.isScalar = true ∧ s ≠ .none := by
  refine Value.ind ?_ ?_ ?_ ?_ ?_ ?_ ?_
  · intro ks h; cases ks <;> cases h
  · intro b ks h
    cases ks with
    | nil => rw [show esValues (.bool b) [] = [.bool b] from rfl, List.mem_singleton] at h; subst h; simp [Value.isScalar]
    | cons => cases h
  · intro b ks h
    cases ks with
    | nil => rw [show esValues (.int b) [] = [.int b] from rfl, List.mem_singleton] at h; subst h; simp [Value.isScalar]
    | cons => cases h
  · intro b ks h
    cases ks with
    | nil => rw [show esValues (.float b) [] = [.float b] from rfl, List.mem_singleton] at h; subst h; simp [Value.isScalar]
    | cons => cases h
  · intro b ks h
    cases ks with
    | nil => rw [show esValues (.str b) [] = [.str b] from rfl, List.mem_singleton] at h; subst h; simp [Value.isScalar]
    | cons => cases h
  · intro l ih ks h
    rw [show esValues (.list l) ks = esElems l ks from by cases ks <;> rfl, mem_esElems] at h
    obtain ⟨v, hv, h⟩ := h
    exact ih v hv ks h
  · intro d ih ks h
    cases ks with
    | nil => cases h
    | cons k ks =>
      rw [show esValues (.dict d) (k :: ks) = esItems d k ks from rfl, esItems_eq] at h
      cases hk : aget k d with
      | none => rw [hk] at h; cases h
      | some v =>
        rw [hk] at h
        exact ih k v (aget_mem hk) ks h

/-- The values that the parser stores under a type. -/
def Typed : PType → Value → Prop
  | .keyword, v => ∃ s, v = .str s
  | .number, v => (∃ i, v = .int i) ∨ ∃ f, v = .float f
  | .date, v => ∃ i, v = .int i
  | .boolean, v => ∃ b, v = .bool b
  | _, _ => True

theorem parseValue_typed {E : ParseEnv} {o : ParsingOptions} {v x : Value} {t : PType} (ht : t.queried)
    (h : aget t.name (parseValue E o v) = some x) : Typed t x := by
  rcases ht with rfl | rfl | rfl | rfl
  · rw [show PType.keyword.name = "_k".toList from rfl, aget_base (by decide)] at h
    have h' : some (Value.str (pyTake o.keywordLength (strValue E o v))) = some x := h
    cases h'
    exact ⟨_, rfl⟩
  · rw [show PType.number.name = "_n".toList from rfl, aget_number] at h
    unfold parsedNumber at h
    split at h
    · cases h; exact .inl ⟨_, rfl⟩
    · cases h; exact .inr ⟨_, rfl⟩
    · obtain ⟨y, _, rfl⟩ := Option.map_eq_some_iff.1 h
      exact .inr ⟨_, rfl⟩
  · rw [show PType.date.name = "_d".toList from rfl, aget_date] at h
    obtain ⟨y, _, rfl⟩ := Option.map_eq_some_iff.1 h
    exact ⟨_, rfl⟩
  · rw [show PType.boolean.name = "_b".toList from rfl, aget_bool] at h
    obtain ⟨y, _, rfl⟩ := Option.map_eq_some_iff.1 h
    exact ⟨_, rfl⟩

theorem parse_typed {E : ParseEnv} {o : ParsingOptions} {d : Dict} {pd : ParsedData} (hw : (Value.dict d).wf = true)
    (hf : FieldNames (.dict d)) (h : parse E o d = .ok pd) {t : PType} (ht : t.queried) {field : PyStr} {s : Value}
    (hs : s ∈ esValues (.dict pd.parsed) (splitDots field ++ [t.name])) : Typed t s := by
  classical
  have := (mem_esField hw hf h ht field (fun x => decide (x = s))).1 (by
    rw [esField_eq ht, List.any_eq_true]
    exact ⟨s, hs, decide_eq_true rfl⟩)
  obtain ⟨_, v, _, _, _, s', h1, h2⟩ := this
  rw [of_decide_eq_true h2] at h1
  exact parseValue_typed ht h1

/-- The values at a path of two documents. -/
theorem esValues_sim {c : Value → Value → Bool} (hc : ∀ v w, c v w = true → w = .none → v = .none) {p p' : Dict}
    (h : VR c (.dict p) (.dict p')) {ks : List PyStr} {s : Value}
    (hs : s ∈ esValues (.dict p) ks) : ∃ s' ∈ esValues (.dict p') ks, c s s' = true := by
  have hsc := esValues_scalar _ _ hs
  obtain ⟨q, h1, h2⟩ := (mem_esValues hsc.1 hsc.2 _ _).1 hs
  obtain ⟨w, h3, h4⟩ := VR_getAt h2 h
  have h5 := VR_scalar hsc.1 h4
  exact ⟨w, (mem_esValues h5.1 (fun e => hsc.2 (hc _ _ h5.2 e)) _ _).2 ⟨q, h1, h3⟩, h5.2⟩

theorem sim_none (v w : Value) (h : simScalarEq v w = true) (hw : w = .none) : v = .none := by
  subst hw
  cases v <;> simp_all [simScalarEq, Value.num]

theorem strict_none (v w : Value) (h : strictScalarEq v w = true) (hw : w = .none) : v = .none := by
  subst hw
  cases v <;> simp_all [strictScalarEq]

theorem strictScalarEq_eq {v w : Value} (h : strictScalarEq v w = true) : v = w := by
  cases v <;> cases w <;> simp_all [strictScalarEq]

theorem any_sim {p p' : Dict} (h : VR simScalarEq (.dict p) (.dict p')) {t : PType} {ks : List PyStr}
    (h1 : ∀ s ∈ esValues (.dict p) ks, Typed t s) (h2 : ∀ s ∈ esValues (.dict p') ks, Typed t s) {f : Value → Bool}
    (hf : ∀ s s', Typed t s → Typed t s' → simScalarEq s s' = true → f s = f s') :
    (esValues (.dict p) ks).any f = (esValues (.dict p') ks).any f := by
  have h' : VR simScalarEq (.dict p') (.dict p) := ⟨h.2.1, h.1, simEq_symm h.1 h.2.1 h.2.2⟩
  rw [Bool.eq_iff_iff, List.any_eq_true, List.any_eq_true]
  constructor
  · rintro ⟨s, hs, hfs⟩
    obtain ⟨s', a, b⟩ := esValues_sim sim_none h hs
    exact ⟨s', a, by rw [← hf s s' (h1 s hs) (h2 s' a) b]; exact hfs⟩
  · rintro ⟨s, hs, hfs⟩
    obtain ⟨s', a, b⟩ := esValues_sim sim_none h' hs
    exact ⟨s', a, by rw [← hf s s' (h2 s hs) (h1 s' a) b]; exact hfs⟩

theorem conv_keyword (Q : QueryEnv) {s s' : Value} (h : Typed .keyword s) (h' : Typed .keyword s')
    (he : simScalarEq s s' = true) : esKeyword Q s = esKeyword Q s' := by
  obtain ⟨a, rfl⟩ := h
  obtain ⟨b, rfl⟩ := h'
  simp only [simScalarEq, decide_eq_true_eq] at he
  rw [he]

theorem conv_date {s s' : Value} (h : Typed .date s) (h' : Typed .date s')
    (he : simScalarEq s s' = true) : esDate s = esDate s' := by
  obtain ⟨a, rfl⟩ := h
  obtain ⟨b, rfl⟩ := h'
  simp [simScalarEq, Value.num] at he
  rw [he]

theorem conv_bool {s s' : Value} (h : Typed .boolean s) (h' : Typed .boolean s')
    (he : simScalarEq s s' = true) : esBool s = esBool s' := by
  obtain ⟨a, rfl⟩ := h
  obtain ⟨b, rfl⟩ := h'
  cases a <;> cases b <;> simp [simScalarEq, Value.num] at he <;> rfl

theorem esDouble_num {s : Value} (h : Typed .number s) :
    esDouble s = s.num.bind (fun f => match f with | .fin q => some (fl q) | _ => none) := by
  rcases h with ⟨a, rfl⟩ | ⟨a, rfl⟩
  · rfl
  · cases a <;> simp [esDouble, Value.num, fl_zero]

theorem conv_number {s s' : Value} (h : Typed .number s) (h' : Typed .number s')
    (he : simScalarEq s s' = true) : esDouble s = esDouble s' := by
  rw [esDouble_num h, esDouble_num h']
  have : s.num = s'.num := by
    rcases h with ⟨a, rfl⟩ | ⟨a, rfl⟩ <;> rcases h' with ⟨b, rfl⟩ | ⟨b, rfl⟩ <;> simp only [simScalarEq] at he <;> split at he <;>
      simp_all
  rw [this]

/-- A query on a type of field. -/
inductive EsQuery.OnField : EsQuery → PyStr → PType → Prop
  | term (field t v) : t.queried → OnField (.term ⟨parsedPath field t, v⟩) field t
  | range (field t b) : t.queried → OnField (.range ⟨parsedPath field t, b⟩) field t

/-- Equal documents match the same queries. -/
theorem EsQuery.OnField.sim {q : EsQuery} {field : PyStr} {t : PType} (h : q.OnField field t) (Q : QueryEnv) {p p' : Dict}
    (hp : VR simScalarEq (.dict p) (.dict p')) (h1 : ∀ s ∈ esValues (.dict p) (splitDots field ++ [t.name]), Typed t s)
    (h2 : ∀ s ∈ esValues (.dict p') (splitDots field ++ [t.name]), Typed t s) : q.matches Q p = q.matches Q p' := by
  cases h with
  | term field t v ht =>
    simp only [EsQuery.matches, EsTerm.matches, esField_eq ht]
    refine any_sim hp h1 h2 ?_
    rcases ht with rfl | rfl | rfl | rfl <;> intro s s' a b e <;> simp only [esTermValue]
    · rw [conv_keyword Q a b e]
    · rw [conv_number a b e]
    · rw [conv_date a b e]
    · rw [conv_bool a b e]
  | range field t bs ht =>
    simp only [EsQuery.matches, EsRange.matches, esField_eq ht]
    refine any_sim hp h1 h2 ?_
    rcases ht with rfl | rfl | rfl | rfl <;> intro s s' a b e <;> simp only [esRangeValue]
    · rw [conv_keyword Q a b e]
    · rw [conv_number a b e]
    · rw [conv_date a b e]
    · rw [conv_bool a b e]

theorem getAt_sim_iff {c : Value → Value → Bool} {v w : Value} (h : VR c v w) (h' : VR c w v) (ks : List PyStr) (P : Value → Prop)
    (hP : ∀ a b, VR c a b → P a → P b) :
    (∃ p u, keysOf p = ks ∧ getAt p v = some u ∧ P u) → ∃ p u, keysOf p = ks ∧ getAt p w = some u ∧ P u := by
  rintro ⟨p, u, h1, h2, h3⟩
  obtain ⟨x, h4, h5⟩ := VR_getAt h2 h
  exact ⟨p, x, h1, h4, hP _ _ h5 h3⟩

theorem esHas_sim : ∀ v : Value, ∀ w, VR simScalarEq v w → esHas v = true → esHas w = true := by
  apply Value.ind'
  · intro v hv w h hh
    have := VR_scalar hv h
    cases w with
    | none =>
      have := sim_none _ _ this.2 rfl
      subst this
      cases hh
    | dict d => exact absurd this.1 (by simp [Value.isScalar])
    | list d => exact absurd this.1 (by simp [Value.isScalar])
    | _ => rfl
  · intro l ih w h hh
    obtain ⟨l', rfl⟩ := VR_left_list h
    have h' := VR_list.1 h
    rw [esHas, esHasElems_iff] at hh ⊢
    obtain ⟨v, hv, hh⟩ := hh
    obtain ⟨i, hi, rfl⟩ := List.mem_iff_getElem.1 hv
    have hi' : i < l'.length := by rw [← h'.length_eq]; exact hi
    exact ⟨l'[i], List.getElem_mem hi', ih _ hv _ (h'.get hi hi') hh⟩
  · intro d ih w h hh
    obtain ⟨d', rfl⟩ := VR_left_dict h
    have h' := VR_dict.1 h
    rw [esHas, esHasItems_iff] at hh ⊢
    obtain ⟨k, v, hv, hk, hh⟩ := hh
    rcases h'.2.2 k with ⟨e, _⟩ | ⟨a, b, ha, hb, hab⟩
    · rw [aget_of_mem h'.1 hv] at e; cases e
    · rw [aget_of_mem h'.1 hv] at ha; cases ha
      exact ⟨k, b, aget_mem hb, hk, ih k _ hv _ hab hh⟩

theorem exists_sim {p p' : Dict} (h : VR simScalarEq (.dict p) (.dict p')) (path : PyStr) :
    existsMatches path p = existsMatches path p' := by
  have h' : VR simScalarEq (.dict p') (.dict p) := ⟨h.2.1, h.1, simEq_symm h.1 h.2.1 h.2.2⟩
  unfold existsMatches
  cases copiedTo path with
  | some t =>
    have key : ∀ {p p' : Dict}, VR simScalarEq (.dict p) (.dict p') → (esCopied t p).isEmpty = false → (esCopied t p').isEmpty = false := by
      intro p p' h hp
      rw [List.isEmpty_eq_false_iff] at hp ⊢
      obtain ⟨s, hs⟩ := List.exists_mem_of_ne_nil _ hp
      obtain ⟨ks, h1, h2⟩ := (mem_esCopied h.1).1 hs
      obtain ⟨s', h3, _⟩ := esValues_sim sim_none h h2
      exact List.ne_nil_of_mem ((mem_esCopied h.2.1).2 ⟨ks, h1, h3⟩)
    have k1 := key h
    have k2 := key h'
    dsimp only
    cases h1 : (esCopied t p).isEmpty <;> cases h2 : (esCopied t p').isEmpty <;> simp_all
  | none =>
  dsimp only
  cases splitDots path with
  | nil => rfl
  | cons k ks =>
    dsimp only
    congr 1
    rw [Bool.eq_iff_iff, esExists_iff, esExists_iff]
    exact ⟨getAt_sim_iff h h' ks _ (fun a b hab ha => esHas_sim a b hab ha),
      getAt_sim_iff h' h ks _ (fun a b hab ha => esHas_sim a b hab ha)⟩

/-! ## What is found -/

/-- The document found for a record holds a parse of its data that is equal to the one as of the version. -/
theorem found_parse {E : ParseEnv} (hE : E.IgnoresOrder) (hS : E.ScalarHints) {db : PyStr} {m : Mongo} {rs : List MongoRecord}
    {es : ES (Option ParsedData)} (hm : DbOk db m) (hrs : rs.Sublist (m.data db)) (hok : LatestOk es)
    (h : IndexesRecords (realParser E) db m rs es) {r : MongoRecord} (hr : r ∈ rs)
    (hdata : ∀ x ∈ histOf (m.data db) r.id, (Value.dict x.2).wf = true ∧ FieldNames (.dict x.2)) {v : Int} {a : Dict}
    (ha : AsOf (histOf (m.data db) r.id) v a) (hne : a ≠ []) {o : ParsingOptions}
    (ho : OptionsAsOf (effectiveOptions (histOf (m.data db) r.id) (committedOptionsOf db m)) v o) :
    ∃ d p q a0 o0 q0, foundFor es (.version v) r.id = [d] ∧ d.parsed = some p ∧ parse E o a = .ok q ∧
      (∃ u, (u, a0) ∈ histOf (m.data db) r.id) ∧ parse E o0 a0 = .ok q0 ∧
      SE (.dict p.parsed) (.dict q0.parsed) ∧ VR simScalarEq (.dict p.parsed) (.dict q.parsed) ∧
      p.dataTypes = q.dataTypes ∧ p.parsedTypes = q.parsedTypes := by
  obtain ⟨D, hD, h1, _⟩ := h.indexed hm hrs hok
  have hh : histOf (m.data db) r.id ≠ [] := by
    obtain ⟨w, hw, _⟩ := ha
    intro he; rw [he] at hw; cases hw
  have hp := h1 r hr hh
  obtain ⟨d, hd, hc⟩ := (hp.covered v).2 ⟨a, ha, hne⟩
  have hopts := effectiveOptions_ne_nil (histOf (m.data db) r.id) hm.options.nonempty
  obtain ⟨o0, ho0⟩ := exists_optionsAsOf hopts d.gte
  obtain ⟨a0, ha0, _⟩ := (hp.covered d.gte).1 ⟨d, hd, Int.le_refl _, fun e he => hp.range d hd e he⟩
  obtain ⟨u, hu, _⟩ := ha
  obtain ⟨u0, hu0, _⟩ := ha0
  obtain ⟨q, hq⟩ := parse_total (E := E) (o := o) hS (hdata _ hu).1
  obtain ⟨q0, hq0⟩ := parse_total (E := E) (o := o0) hS (hdata _ hu0).1
  obtain ⟨_, _, w1, _⟩ := parse_eq hE (SE.refl (hdata _ hu).1) hq
  obtain ⟨_, _, w2, _⟩ := parse_eq hE (SE.refl (hdata _ hu0).1) hq0
  have c1 := canonDict_se w1.1
  have c0 := canonDict_se w2.1
  have e := hp.start d hd a0 o0 ⟨u0, hu0, ‹_›⟩ ho0
  have hsame := hp.content v d hd hc a o ⟨u, hu, ‹_›⟩ ho
  have e1 : (realParser E).parse a o = some { q with parsed := canonDict q.parsed } := by simp [realParser, hq]
  have e0 : (realParser E).parse a0 o0 = some { q0 with parsed := canonDict q0.parsed } := by simp [realParser, hq0]
  rw [e0] at e
  rw [e, e1] at hsame
  refine ⟨d, _, q, a0, o0, q0, hD.foundFor_some hr hd hc, e, hq, ⟨u0, hu0⟩, hq0, c0.symm, ?_⟩
  rcases hsame with hsame | hsame
  · simp only [Option.some.injEq, ParsedData.mk.injEq] at hsame
    refine ⟨?_, hsame.2.1, hsame.2.2⟩
    dsimp only
    rw [hsame.1]
    exact c1.symm.sim
  · simp only [realParser, Bool.and_eq_true, decide_eq_true_eq] at hsame
    rcases hsame with hsame | hsame
    · exact ⟨VRsim_trans ⟨c0.2.1, c1.2.1, simEq_of_pyEq hsame.1.1⟩ c1.symm.sim, hsame.1.2, hsame.2⟩
    · exact ⟨VRsim_trans ⟨c0.2.1, c1.2.1, hsame.1.1⟩ c1.symm.sim, hsame.1.2, hsame.2⟩

/-- What a query on a field says about the document of a record. -/
theorem EsQuery.OnField.doc {E : ParseEnv} {q : EsQuery} {field : PyStr} {t : PType} (h : q.OnField field t) (Q : QueryEnv)
    {d : Doc (Option ParsedData)} {p q1 q0 : ParsedData} {a a0 : Dict} {o o0 : ParsingOptions} (hp : d.parsed = some p)
    (hw : (Value.dict a).wf = true) (hf : FieldNames (.dict a)) (hw0 : (Value.dict a0).wf = true) (hf0 : FieldNames (.dict a0))
    (h1 : parse E o a = .ok q1) (h0 : parse E o0 a0 = .ok q0)
    (hs : SE (.dict p.parsed) (.dict q0.parsed)) (hv : VR simScalarEq (.dict p.parsed) (.dict q1.parsed)) :
    q.finds Q d = q.matches Q q1.parsed := by
  have ht : t.queried := by cases h <;> assumption
  simp only [EsQuery.finds, hp]
  refine h.sim Q hv (fun s hs' => ?_) (fun s hs' => parse_typed hw hf h1 ht hs')
  obtain ⟨s', a, b⟩ := esValues_sim strict_none hs hs'
  rw [strictScalarEq_eq b]
  exact parse_typed hw0 hf0 h0 ht a

/-! ## What is asked for -/

theorem moment_queried (Q : QueryEnv) (field : PyStr) (m : Moment) :
    termQuery Q field m.arg none = .ok ⟨parsedPath field .date, m.arg.toValue Q⟩ := by cases m <;> rfl

theorem num_queried (Q : QueryEnv) (field : PyStr) (n : Num) :
    termQuery Q field (.value n.value) none = .ok ⟨parsedPath field .number, n.value⟩ := by cases n <;> rfl

theorem moment_map (Q : QueryEnv) (b : Bounds Moment) :
    b.map (fun m => m.arg.toValue Q) = (b.map (fun m => toTimestamp (m.epoch Q))).map Value.int := by
  rw [map_map]
  congr 1
  funext m
  cases m <;> rfl

/-- Which query is made, and what it matches. -/
theorem Asked.query_ok (Q : QueryEnv) (field : PyStr) (k : Asked) (hb : k.Bounded) :
    ∃ q t, k.query Q field = .ok q ∧ q.OnField field t ∧ ∀ (E : ParseEnv) (o : ParsingOptions) (d : Dict) (pd : ParsedData),
      (Value.dict d).wf = true → FieldNames (.dict d) → parse E o d = .ok pd → 0 ≤ o.keywordLength →
      (q.matches Q pd.parsed = true ↔ HasInField d field (k.holds Q E o)) := by
  cases k with
  | string s =>
    exact ⟨_, .keyword, rfl, .term field .keyword (.str s) (.inl rfl), fun E o d pd hw hf h hn => term_keyword hw hf h hn field s⟩
  | number n =>
    refine ⟨.term ⟨parsedPath field .number, n.value⟩, .number, by simp only [Asked.query, num_queried]; rfl,
      .term field .number _ (.inr (.inl rfl)), fun E o d pd hw hf h _ => ?_⟩
    exact term_number hw hf h field (num_conv n)
  | boolean b =>
    exact ⟨_, .boolean, rfl, .term field .boolean (.bool b) (.inr (.inr (.inr rfl))),
      fun E o d pd hw hf h _ => term_bool hw hf h field b⟩
  | moment m =>
    refine ⟨.term ⟨parsedPath field .date, m.arg.toValue Q⟩, .date, by simp only [Asked.query, moment_queried]; rfl,
      .term field .date _ (.inr (.inr (.inl rfl))), fun E o d pd hw hf h _ => ?_⟩
    cases m <;> exact term_date hw hf h field _
  | strings b =>
    exact ⟨.range ⟨parsedPath field .keyword, b.map Value.str⟩, .keyword, by
        simp only [Asked.query, range_ok Q field (t := .keyword) (f := fun s => .value (.str s)) (fun s => .str s) hb]; rfl,
      .range field .keyword _ (.inl rfl), fun E o d pd hw hf h hn => range_keyword (Q := Q) hw hf h hn field b⟩
  | numbers b =>
    exact ⟨_, .number, by
        simp only [Asked.query, range_ok (t := .number) Q field (f := fun n : Num => .value n.value) (fun n => by cases n <;> constructor) hb]; rfl,
      .range field .number _ (.inr (.inl rfl)), fun E o d pd hw hf h _ => range_number hw hf h field b⟩
  | booleans b =>
    exact ⟨_, .boolean, by simp only [Asked.query, range_ok Q field (t := .boolean) (fun x => .bool x) hb]; rfl,
      .range field .boolean _ (.inr (.inr (.inr rfl))), fun E o d pd hw hf h _ => range_bool hw hf h field b⟩
  | moments b =>
    refine ⟨.range ⟨parsedPath field .date, b.map (fun m => m.arg.toValue Q)⟩, .date, by
        simp only [Asked.query, range_ok (t := .date) Q field (f := Moment.arg) (fun m => by cases m <;> constructor) hb]; rfl,
      .range field .date _ (.inr (.inr (.inl rfl))), fun E o d pd hw hf h _ => ?_⟩
    rw [moment_map]
    exact range_date hw hf h field _

theorem HasInField.ne_nil {a : Dict} {field : PyStr} {P : Value → Prop} (ha : HasInField a field P) : a ≠ [] := by
  rintro rfl
  obtain ⟨p, v, _, h2, h3, _⟩ := ha
  cases p with
  | nil => cases h2; cases h3
  | cons x p => cases x <;> simp [getAt, aget] at h2

theorem effectiveOptions_congr {h h' : List (Int × Dict)} (e : h.map Prod.fst = h'.map Prod.fst) (opts : List (Int × ParsingOptions)) :
    effectiveOptions h opts = effectiveOptions h' opts := by
  have key : ∀ (h : List (Int × Dict)) (w : Int), h.any (fun vd => decide (vd.1 ≤ w)) = (h.map Prod.fst).any (fun x => decide (x ≤ w)) := by
    intro h w; rw [List.any_map]; rfl
  unfold effectiveOptions
  simp only [key, e]

theorem VersEq.versions {K : DataClass} {a b : List (Int × Dict)} (h : VersEq K a b) : a.map Prod.fst = b.map Prod.fst := by
  induction h with
  | nil => rfl
  | cons h _ ih => rw [List.map_cons, List.map_cons, h.1, ih]

theorem mem_found_iff {es : ES (Option ParsedData)} {at_ : SearchAt} {d : Doc (Option ParsedData)} {id : PyStr} :
    d ∈ foundFor es at_ id ↔ d ∈ (es.search at_).run es ∧ d.id = id := by
  simp [foundFor, found]

/-- If at most one document is found for each record, then the ids are different. -/
theorem found_nodup {es : ES (Option ParsedData)} {at_ : SearchAt} (h : ∀ id, foundFor es at_ id = [] ∨ ∃ d, foundFor es at_ id = [d])
    (f : Doc (Option ParsedData) → Bool) : (foundIds (((es.search at_).run es).filter f)).Nodup := by
  have h1 : (foundIds ((es.search at_).run es)).Nodup := by
    rw [List.nodup_iff_count_le_one]
    intro id
    have e : (foundIds ((es.search at_).run es)).count id = (foundFor es at_ id).length := by
      unfold foundIds foundFor found
      rw [List.count, List.countP_map, List.countP_eq_length_filter]
      congr 2
      funext d
      simp [beq_eq_decide]
    rw [e]
    rcases h id with h | ⟨d, h⟩ <;> rw [h] <;> simp
  exact h1.sublist (List.Sublist.map _ List.filter_sublist)

section
variable {E : ParseEnv} (hE : E.IgnoresOrder) (hS : E.ScalarHints) {db : PyStr} {m : Mongo} {s : Store}
  {hi : Option Int} {K : PyStr → DataClass} (hl : LifeInv K db m s hi) (hm : DbOk db m) {es : ES (Option ParsedData)}
  (h2 : LatestOk es) (h3 : IndexesRecords (realParser E) db m ((m.data db).filter (fun r => r.version.isSome)) es)
  {T : Places} {id : PyStr} (hK : K id = (strictClass T).named)
include hE hS hl hm h2 h3 hK

/-- For a record that exists at a version: the document that is found, and its content. -/
theorem LifeInv.found_doc_at {v : Int} {a : Dict} {o : ParsingOptions} (ha : AsOf (s id).committed v a) (hne : a ≠ [])
    (hp : (s id).pending = none) (ho : OptionsAsOf (effectiveOptions (s id).committed (committedOptionsOf db m)) v o) :
    ∃ d p q a0 o0 q0, foundFor es (.version v) id = [d] ∧ d.parsed = some p ∧ (Value.dict a).wf = true ∧ FieldNames (.dict a) ∧
      parse E o a = .ok q ∧ (Value.dict a0).wf = true ∧ FieldNames (.dict a0) ∧ parse E o0 a0 = .ok q0 ∧
      SE (.dict p.parsed) (.dict q0.parsed) ∧ VR simScalarEq (.dict p.parsed) (.dict q.parsed) ∧
      p.dataTypes = q.dataTypes ∧ p.parsedTypes = q.parsedTypes := by
  have hid : id ∈ (m.data db).map MongoRecord.id := by
    refine mem_ids_of_hist (fun hnil => ?_)
    obtain ⟨y, ⟨w, hw, _⟩, _⟩ := (hl.hist id).asOf ha
    rw [hnil] at hw; cases hw
  obtain ⟨r, hr, rfl⟩ := List.mem_map.1 hid
  have hh := hl.hist r.id
  rw [hK] at hh
  obtain ⟨b, hb, hba⟩ := hh.asOf ha
  have hr' : r ∈ (m.data db).filter (fun r => r.version.isSome) := List.mem_filter.2 ⟨hr, (hl.pending_iff hr).1 hp⟩
  have hdata : ∀ x ∈ histOf (m.data db) r.id, (Value.dict x.2).wf = true ∧ FieldNames (.dict x.2) :=
    fun x hx => ⟨(hh.left_mem hx).1.1, (hh.left_mem hx).2⟩
  rw [← effectiveOptions_congr hh.versions] at ho
  obtain ⟨d, p, q, a0, o0, q0, g1, g2, g3, ⟨u, hu⟩, g4, g5, g6, g7⟩ := found_parse hE hS hm List.filter_sublist h2 h3 hr' hdata hb
    (fun e => hne (hba.nil_iff.1 e)) ho
  obtain ⟨w, hw, _⟩ := hb
  have hse : SE (.dict b) (.dict a) := hba.vr
  obtain ⟨q', k1, k2, k3, k4⟩ := parse_eq hE hse g3
  exact ⟨d, p, q', a0, o0, q0, g1, g2, hse.2.1, (hdata _ hw).2.of_vr hse.symm, k1, (hdata _ hu).1, (hdata _ hu).2, g4, g5,
    VRsim_trans g6 k2.sim, g7.1.trans k3, g7.2.trans k4⟩

theorem LifeInv.found_once_at (v : Int) : foundFor es (.version v) id = [] ∨ ∃ d, foundFor es (.version v) id = [d] := by
  by_cases h : ¬ Alive (s id).committed v ∨ (s id).pending ≠ none
  · exact .inl (hl.finds_nothing hm h2 h3 h)
  · simp only [not_or, not_not] at h
    obtain ⟨⟨a, ha, hne⟩, hp⟩ := h
    obtain ⟨o, ho⟩ := exists_optionsAsOf (effectiveOptions_ne_nil (s id).committed hm.options.nonempty) v
    obtain ⟨d, _, _, _, _, _, h, _⟩ := hl.found_doc_at hE hS hm h2 h3 hK ha hne hp ho
    exact .inr ⟨d, h⟩

/-- What is found for a record that exists, with the data and options as of the version. -/
theorem LifeInv.found_exists_at {v : Int} {d : Doc (Option ParsedData)} (hd : d ∈ (es.search (.version v)).run es)
    (hid : d.id = id) : (s id).pending = none ∧ ∃ a o, AsOf (s id).committed v a ∧ a ≠ [] ∧
      OptionsAsOf (effectiveOptions (s id).committed (committedOptionsOf db m)) v o ∧ foundFor es (.version v) id = [d] := by
  have hmem : d ∈ foundFor es (.version v) id := mem_found_iff.2 ⟨hd, hid⟩
  have h : ¬ (¬ Alive (s id).committed v ∨ (s id).pending ≠ none) := by
    intro h
    rw [hl.finds_nothing hm h2 h3 h] at hmem
    cases hmem
  simp only [not_or, not_not] at h
  obtain ⟨⟨a, ha, hne⟩, hp⟩ := h
  obtain ⟨o, ho⟩ := exists_optionsAsOf (effectiveOptions_ne_nil (s id).committed hm.options.nonempty) v
  refine ⟨hp, a, o, ha, hne, ho, ?_⟩
  rcases hl.found_once_at hE hS hm h2 h3 hK v with e | ⟨d', e⟩
  · rw [e] at hmem; cases hmem
  · rw [e] at hmem ⊢
    rw [List.mem_singleton.1 hmem]

/-- Whether a query finds the record. -/
theorem LifeInv.asked_at (hk : ∀ x ∈ committedOptionsOf db m, 0 ≤ x.2.keywordLength) (Q : QueryEnv) (field : PyStr) (k : Asked) (hb : k.Bounded) :
    ∃ q, k.query Q field = .ok q ∧ ∀ v,
      (id ∈ foundIds (es.searchFor Q (.version v) q) ↔ (s id).pending = none ∧ ∃ a o, AsOf (s id).committed v a ∧
        OptionsAsOf (effectiveOptions (s id).committed (committedOptionsOf db m)) v o ∧ HasInField a field (k.holds Q E o)) := by
  obtain ⟨q, t, hq, hon, hmatch⟩ := k.query_ok Q field hb
  refine ⟨q, hq, fun v => ?_⟩
  have hko : ∀ {o}, OptionsAsOf (effectiveOptions (s id).committed (committedOptionsOf db m)) v o → 0 ≤ o.keywordLength := by
    intro o ho
    rcases ho with ⟨w, hw, _⟩ | ⟨_, w, hw, _⟩ <;> exact hk _ (List.mem_filter.1 hw).1
  have key : ∀ {d a o}, foundFor es (.version v) id = [d] → AsOf (s id).committed v a → a ≠ [] → (s id).pending = none →
      OptionsAsOf (effectiveOptions (s id).committed (committedOptionsOf db m)) v o →
      (q.finds Q d = true ↔ HasInField a field (k.holds Q E o)) := by
    intro d a o hd ha hne hp ho
    obtain ⟨d', p, q1, a0, o0, q0, g1, g2, g3, g3', g4, g5, g6, g7, g8, g9, _⟩ := hl.found_doc_at hE hS hm h2 h3 hK ha hne hp ho
    rw [hd] at g1
    cases g1
    rw [hon.doc Q g2 g3 g3' g5 g6 g4 g7 g8 g9, hmatch E o a q1 g3 g3' g4 (hko ho)]
  constructor
  · intro h
    obtain ⟨d, hd, hid⟩ := List.mem_map.1 h
    obtain ⟨hd1, hd2⟩ := List.mem_filter.1 hd
    obtain ⟨hp, a, o, ha, hne, ho, hf⟩ := hl.found_exists_at hE hS hm h2 h3 hK hd1 hid
    exact ⟨hp, a, o, ha, ho, (key hf ha hne hp ho).1 hd2⟩
  · rintro ⟨hp, a, o, ha, ho, hin⟩
    have hne := hin.ne_nil
    obtain ⟨d, _, _, _, _, _, g1, _⟩ := hl.found_doc_at hE hS hm h2 h3 hK ha hne hp ho
    have hd := mem_found_iff.1 (show d ∈ foundFor es (.version v) id by rw [g1]; simp)
    exact List.mem_map.2 ⟨d, List.mem_filter.2 ⟨hd.1, (key g1 ha hne hp ho).2 hin⟩, hd.2⟩

end

section
variable {E : ParseEnv} (hE : E.IgnoresOrder) (hS : E.ScalarHints) {db : PyStr} {m : Mongo} {s : Store}
  {hi : Option Int} {U : Unicode} {rs : List Record} {hn : NoPunsAmong U rs}
  (hl : LifeInv (fun id => (strictClass (placesOf U rs hn id)).named) db m s hi) (hm : DbOk db m) {es : ES (Option ParsedData)}
  (h2 : LatestOk es) (h3 : IndexesRecords (realParser E) db m ((m.data db).filter (fun r => r.version.isSome)) es)
include hE hS hl hm h2 h3

theorem LifeInv.found_doc {v : Int} {id : PyStr} {a : Dict} {o : ParsingOptions} (ha : AsOf (s id).committed v a) (hne : a ≠ [])
    (hp : (s id).pending = none) (ho : OptionsAsOf (effectiveOptions (s id).committed (committedOptionsOf db m)) v o) :
    ∃ d p q a0 o0 q0, foundFor es (.version v) id = [d] ∧ d.parsed = some p ∧ (Value.dict a).wf = true ∧ FieldNames (.dict a) ∧
      parse E o a = .ok q ∧ (Value.dict a0).wf = true ∧ FieldNames (.dict a0) ∧ parse E o0 a0 = .ok q0 ∧
      SE (.dict p.parsed) (.dict q0.parsed) ∧ VR simScalarEq (.dict p.parsed) (.dict q.parsed) ∧
      p.dataTypes = q.dataTypes ∧ p.parsedTypes = q.parsedTypes := hl.found_doc_at hE hS hm h2 h3 rfl ha hne hp ho

theorem LifeInv.found_once (v : Int) (id : PyStr) : foundFor es (.version v) id = [] ∨ ∃ d, foundFor es (.version v) id = [d] :=
  hl.found_once_at hE hS hm h2 h3 rfl v

theorem LifeInv.found_exists {v : Int} {id : PyStr} {d : Doc (Option ParsedData)} (hd : d ∈ (es.search (.version v)).run es)
    (hid : d.id = id) : (s id).pending = none ∧ ∃ a o, AsOf (s id).committed v a ∧ a ≠ [] ∧
      OptionsAsOf (effectiveOptions (s id).committed (committedOptionsOf db m)) v o ∧ foundFor es (.version v) id = [d] :=
  hl.found_exists_at hE hS hm h2 h3 rfl hd hid

/-- Which records a query finds. -/
theorem LifeInv.asked (hk : ∀ x ∈ committedOptionsOf db m, 0 ≤ x.2.keywordLength) (Q : QueryEnv) (field : PyStr) (k : Asked) (hb : k.Bounded) :
    ∃ q, k.query Q field = .ok q ∧ ∀ v, (foundIds (es.searchFor Q (.version v) q)).Nodup ∧ ∀ id,
      (id ∈ foundIds (es.searchFor Q (.version v) q) ↔ (s id).pending = none ∧ ∃ a o, AsOf (s id).committed v a ∧
        OptionsAsOf (effectiveOptions (s id).committed (committedOptionsOf db m)) v o ∧ HasInField a field (k.holds Q E o)) := by
  obtain ⟨q, t, hq, _⟩ := k.query_ok Q field hb
  refine ⟨q, hq, fun v => ⟨found_nodup (hl.found_once hE hS hm h2 h3 v) _, fun id => ?_⟩⟩
  obtain ⟨q', hq', h⟩ := hl.asked_at hE hS hm h2 h3 (id := id) rfl hk Q field k hb
  rw [hq] at hq'
  cases hq'
  exact h v

/-- Which records an exists query finds. -/
theorem LifeInv.asked_exists (hP : E.PlacesHaveValues) (Q : QueryEnv) (field : PyStr) (hk : ∀ k ∈ splitDots field, FieldName k) (v : Int) :
    (foundIds (es.searchFor Q (.version v) (.exists_ (existsQuery field)))).Nodup ∧ ∀ id,
      (id ∈ foundIds (es.searchFor Q (.version v) (.exists_ (existsQuery field))) ↔ (s id).pending = none ∧
        ∃ a, AsOf (s id).committed v a ∧ ∃ p x, fieldPath p = field ∧ getAt p (.dict a) = some x ∧ HasValue x) := by
  refine ⟨found_nodup (hl.found_once hE hS hm h2 h3 v) _, fun id => ?_⟩
  have hne' : ∀ {a : Dict}, (∃ p x, fieldPath p = field ∧ getAt p (.dict a) = some x ∧ HasValue x) → a ≠ [] := by
    rintro a ⟨p, x, g1, g2, p', w, g3, g4⟩ rfl
    cases p with
    | nil =>
      cases g2
      cases p' with
      | nil => cases g3; cases g4
      | cons x p => cases x <;> simp [getAt, aget] at g3
    | cons x p => cases x <;> simp [getAt, aget] at g2
  have key : ∀ {d a o}, foundFor es (.version v) id = [d] → AsOf (s id).committed v a → a ≠ [] → (s id).pending = none →
      OptionsAsOf (effectiveOptions (s id).committed (committedOptionsOf db m)) v o →
      (EsQuery.finds Q (.exists_ (existsQuery field)) d = true ↔
        ∃ p x, fieldPath p = field ∧ getAt p (.dict a) = some x ∧ HasValue x) := by
    intro d a o hd ha hne hp ho
    obtain ⟨d', p, q1, a0, o0, q0, g1, g2, g3, g3', g4, g5, g6, g7, g8, g9, _⟩ := hl.found_doc hE hS hm h2 h3 ha hne hp ho
    rw [hd] at g1
    cases g1
    simp only [EsQuery.finds, g2, EsQuery.matches]
    rw [exists_sim g9, exists_iff hP g3 g3' g4 hk]
  constructor
  · intro h
    obtain ⟨d, hd, hid⟩ := List.mem_map.1 h
    obtain ⟨hd1, hd2⟩ := List.mem_filter.1 hd
    obtain ⟨hp, a, o, ha, hne, ho, hf⟩ := hl.found_exists hE hS hm h2 h3 hd1 hid
    exact ⟨hp, a, ha, (key hf ha hne hp ho).1 hd2⟩
  · rintro ⟨hp, a, ha, hin⟩
    have hne := hne' hin
    obtain ⟨o, ho⟩ := exists_optionsAsOf (effectiveOptions_ne_nil (s id).committed hm.options.nonempty) v
    obtain ⟨d, _, _, _, _, _, g1, _⟩ := hl.found_doc hE hS hm h2 h3 ha hne hp ho
    have hd := mem_found_iff.1 (show d ∈ foundFor es (.version v) id by rw [g1]; simp)
    exact List.mem_map.2 ⟨d, List.mem_filter.2 ⟨hd.1, (key g1 ha hne hp ho).2 hin⟩, hd.2⟩

end

end Splitgill
