import Verif.Proof.Wire
import Verif.Proof.Names
import Verif.Proof.Utils
import Verif.Proof.Each2
import Verif.Proof.Entries4
import Verif.Model.Wire
import Verif.Spec.Wire
import Verif.Spec.Search
import Verif.Props.FieldLimit
import Verif.Props.Json
/-!
# Lemmas: the JSON documents of Elasticsearch show the documents of the model of syncs
-/

namespace Splitgill

section
variable {κ κ' α β : Type} [DecidableEq κ] [DecidableEq κ']

/-- The same entries, with other keys and related values. -/
abbrev Related (f : κ → κ') (R : α → β → Prop) (a : List (κ × α)) (b : List (κ' × β)) : Prop :=
  List.Forall₂ (fun x y => y.1 = f x.1 ∧ R x.2 y.2) a b

variable {f : κ → κ'} {R : α → β → Prop}

theorem Related.aset (hf : ∀ k k', f k = f k' → k = k') {k : κ} {v : α} {w : β} (hv : R v w) {a : List (κ × α)} {b : List (κ' × β)}
    (h : Related f R a b) : Related f R (Splitgill.aset k v a) (Splitgill.aset (f k) w b) := by
  induction h with
  | nil => exact .cons ⟨rfl, hv⟩ .nil
  | @cons x y a b hxy h ih =>
    obtain ⟨k1, v1⟩ := x
    obtain ⟨k2, v2⟩ := y
    obtain ⟨rfl, h1⟩ := hxy
    rw [Splitgill.aset, Splitgill.aset]
    by_cases hk : k = k1
    · rw [if_pos hk, if_pos (by rw [hk])]
      exact .cons ⟨rfl, hv⟩ h
    · rw [if_neg hk, if_neg (fun e => hk (hf _ _ e))]
      exact .cons ⟨rfl, h1⟩ ih

theorem Related.aerase (hf : ∀ k k', f k = f k' → k = k') {k : κ} {a : List (κ × α)} {b : List (κ' × β)}
    (h : Related f R a b) : Related f R (Splitgill.aerase k a) (Splitgill.aerase (f k) b) := by
  induction h with
  | nil => exact .nil
  | @cons x y a b hxy h ih =>
    obtain ⟨k1, v1⟩ := x
    obtain ⟨k2, v2⟩ := y
    obtain ⟨rfl, h1⟩ := hxy
    rw [Splitgill.aerase, Splitgill.aerase]
    by_cases hk : k = k1
    · rw [if_pos hk, if_pos (by rw [hk])]
      exact h
    · rw [if_neg hk, if_neg (fun e => hk (hf _ _ e))]
      exact .cons ⟨rfl, h1⟩ ih

theorem Related.aget (hf : ∀ k k', f k = f k' → k = k') (k : κ) {a : List (κ × α)} {b : List (κ' × β)} (h : Related f R a b) :
    (Splitgill.aget k a = none ∧ Splitgill.aget (f k) b = none) ∨
      ∃ v w, Splitgill.aget k a = some v ∧ Splitgill.aget (f k) b = some w ∧ R v w := by
  induction h with
  | nil => exact .inl ⟨rfl, rfl⟩
  | @cons x y a b hxy h ih =>
    obtain ⟨k1, v1⟩ := x
    obtain ⟨k2, v2⟩ := y
    obtain ⟨rfl, h1⟩ := hxy
    rw [Splitgill.aget, Splitgill.aget]
    by_cases hk : k = k1
    · rw [if_pos hk, if_pos (by rw [hk])]
      exact .inr ⟨_, _, rfl, rfl, h1⟩
    · rw [if_neg hk, if_neg (fun e => hk (hf _ _ e))]
      exact ih

theorem forall₂_filter {A B : Type} {T : A → B → Prop} {p : A → Bool} {q : B → Bool} (hpq : ∀ x y, T x y → p x = q y) {a : List A} {b : List B}
    (h : List.Forall₂ T a b) : List.Forall₂ T (a.filter p) (b.filter q) := by
  induction h with
  | nil => exact .nil
  | @cons x y a b hxy h ih =>
    rw [List.filter_cons, List.filter_cons, hpq x y hxy]
    split
    · exact .cons hxy ih
    · exact ih

end

/-- The document, sent as JSON. -/
def SentAs (d : Doc (Option ParsedData)) (e : Dict) : Prop := ∃ p, d.written = some p ∧ e = sentDict p.toDict

/-- The types of the fields of an index: regular, and all of them fields that data with these fields can have. -/
structure MapOk (fields : List (List PyStr)) (m : Mapping) : Prop where
  regular : RegularMapping m
  nodup : (akeys m).Nodup
  known : ∀ q ∈ akeys m, q ∈ allFields Props.allTypes fields

/-- The document, as the parser made it, sent as JSON to an index that has all its fields. -/
def SentIn (E : ParseEnv) (m : Mapping) (d : Doc (Option ParsedData)) (e : Dict) : Prop :=
  ∃ p, d.written = some p ∧ e = sentDict p.toDict ∧ MadeFrom E ShortKeywords p.parsed ∧ CoveredDoc m e

theorem SentIn.sentAs {E : ParseEnv} {m : Mapping} {d : Doc (Option ParsedData)} {e : Dict} (h : SentIn E m d e) : SentAs d e := by
  obtain ⟨p, h1, h2, _⟩ := h
  exact ⟨p, h1, h2⟩

theorem SentIn.mono {E : ParseEnv} {m m' : Mapping} (hm : MapMono m m') {d : Doc (Option ParsedData)} {e : Dict} (h : SentIn E m d e) : SentIn E m' d e := by
  obtain ⟨p, h1, h2, h3, h4⟩ := h
  exact ⟨p, h1, h2, h3, h4.mono hm⟩

/-- An index with the same documents. -/
def IndexShows (E : ParseEnv) (fields : List (List PyStr)) (docs : Index (Option ParsedData)) (j : JsonIndex) : Prop :=
  MapOk fields j.mapping ∧ Related id (SentIn E j.mapping) docs j.docs

/-- The same indices with the same documents. -/
structure Shows (E : ParseEnv) (db : PyStr) (fields : List (List PyStr)) (es : ES (Option ParsedData)) (s : Server) : Prop where
  nodup : (akeys es).Nodup
  rel : Related (indexName db) (IndexShows E fields) es s

/-- An operation that is taken. -/
structure GoodOp (E : ParseEnv) (F : FloatText) (fields : List (List PyStr)) (op : BulkOp ParsedData) : Prop where
  writable : op.Writable F
  plain : op.PlainDelete
  made : ∀ ix docId doc, op = .index ix docId doc → MadeFromFields E ShortKeywords fields doc.parsed ∧ ShortTexts doc

section
variable {E : ParseEnv} {F : FloatText} {S : EsEnv} {fields : List (List PyStr)} {db : PyStr}

theorem mapOk_initial : MapOk fields initialMapping := ⟨regular_initial, by decide, fun _ hq => List.mem_append_left _ hq⟩

theorem limitDoc_ok (hP : PlacesOk E S) (hl : S.NotLonger) (hn : fields.length ≤ 443) {doc : Doc ParsedData}
    (hd : MadeFromFields E ShortKeywords fields doc.parsed ∧ ShortTexts doc) {m : Mapping} (hm : MapOk fields m) :
    ∃ m', limitDoc S fieldLimit m (sentDict doc.toDict) = some m' ∧ MapOk fields m' ∧ MapMono m m' ∧ CoveredDoc m' (sentDict doc.toDict) := by
  obtain ⟨h1, h2⟩ := hd
  have h1' : MadeFrom E ShortKeywords doc.parsed := by
    obtain ⟨data, o, a, b, c, _, e⟩ := h1
    exact ⟨data, o, a, b, c, e⟩
  obtain ⟨m', h3, h4⟩ := mapDoc_ok (madeFrom_shaped hP hl h1') h2 hm.regular
  have ha := mapDoc_adds hm.regular h3
  have hn' := ha.nodup hm.nodup
  have hk' : ∀ q ∈ akeys m', q ∈ allFields Props.allTypes fields := by
    intro q hq
    rcases ha.keys q hq with hq | hq
    · exact hm.known q hq
    · rcases List.mem_append.1 hq with hq | hq
      · exact List.mem_append_left _ hq
      · rcases List.mem_cons.1 hq with rfl | hq
        · exact List.mem_append_right _ List.mem_cons_self
        · exact atField_all (placed_root (madeFrom_placed (Props.allTypes_found E) h1) q hq)
  have hlen : m'.length ≤ fieldLimit := by
    have h5 := (List.subperm_of_subset hn' hk').length_le
    rw [allFields_length] at h5
    have h6 : (akeys m').length = m'.length := by simp [akeys]
    have h7 : Props.allTypes.length = 8 := rfl
    have h8 : fieldLimit = 4000 := rfl
    rw [h7] at h5
    omega
  refine ⟨m', ?_, ⟨h4, hn', hk'⟩, mapDoc_covered _ h3⟩
  unfold limitDoc
  rw [h3]
  exact if_pos hlen

theorem Shows.index (h : Shows E db fields es s) (ix : Ix) : IndexShows E fields (es.docs ix) (s.index (indexName db ix)) := by
  unfold ES.docs Server.index
  rcases h.rel.aget (fun _ _ e => (indexName_inj e).2) ix with ⟨h1, h2⟩ | ⟨v, w, h1, h2, h3⟩
  · rw [h1, h2]; exact ⟨mapOk_initial, .nil⟩
  · rw [h1, h2]; exact h3

theorem Shows.aset {docs j} (h : Shows E db fields es s) (ix : Ix) (hj : IndexShows E fields docs j) :
    Shows E db fields (Splitgill.aset ix docs es) (Splitgill.aset (indexName db ix) j s) :=
  ⟨nodup_aset h.nodup, h.rel.aset (fun _ _ e => (indexName_inj e).2) hj⟩

theorem putDoc_shows {R : Doc (Option ParsedData) → Dict → Prop} {docId : Option PyStr} {d : Doc (Option ParsedData)} {e : Dict} (hd : R d e)
    {docs : Index (Option ParsedData)} {js : List (Option PyStr × Dict)} (h : Related id R docs js) :
    Related id R (indexDoc docId d docs) (putDoc docId e js) := by
  cases docId with
  | none => exact List.rel_append h (.cons ⟨rfl, hd⟩ .nil)
  | some i => exact h.aset (f := id) (fun _ _ e => e) hd

/-- An operation does the same in both. -/
theorem apply_shows (hP : PlacesOk E S) (hl : S.NotLonger) (hn : fields.length ≤ 443) {op : BulkOp (Option ParsedData)} {op' : BulkOp ParsedData}
    (hw : op.written = some op') (hg : GoodOp E F fields op') (h : Shows E db fields es s) :
    ∃ s', (op'.wire db).apply S s = .ok s' ∧ Shows E db fields (op.apply es) s' := by
  cases op with
  | index ix docId d =>
    obtain ⟨doc, hd, rfl⟩ := Option.map_eq_some_iff.1 hw
    have hi := h.index ix
    obtain ⟨m', h1, h2, h3, h4⟩ := limitDoc_ok hP hl hn (hg.made _ _ _ rfl) hi.1
    have hmade : MadeFrom E ShortKeywords doc.parsed := by
      obtain ⟨data, o, a, b, c, _, e⟩ := (hg.made _ _ _ rfl).1
      exact ⟨data, o, a, b, c, e⟩
    refine ⟨_, ?_, h.aset ix (j := ⟨m', putDoc docId (sentDict doc.toDict) (s.index (indexName db ix)).docs⟩)
      ⟨h2, putDoc_shows ⟨doc, hd, rfl, hmade, h4⟩ (hi.2.imp fun _ _ e => ⟨e.1, e.2.mono h3⟩)⟩⟩
    unfold BulkOp.wire WireOp.apply
    dsimp only
    rw [h1]
  | delete ix docId =>
    cases hw
    have hi := h.index ix
    exact ⟨_, rfl, h.aset ix ⟨hi.1, hi.2.aerase (f := id) (fun _ _ e => e)⟩⟩

theorem applyAll_shows (hP : PlacesOk E S) (hl : S.NotLonger) (hn : fields.length ≤ 443) : ∀ {ops : List (BulkOp (Option ParsedData))}
    {ops' : List (BulkOp ParsedData)}, writtenOps ops = some ops' → (∀ op ∈ ops', GoodOp E F fields op) → ∀ {es s}, Shows E db fields es s →
    ∃ s', s.applyAll S (ops'.map (BulkOp.wire db)) = .ok s' ∧ Shows E db fields (es.applyOps ops) s'
  | [], ops', hw, _, es, s, h => by cases hw; exact ⟨s, rfl, h⟩
  | op :: ops, ops', hw, hg, es, s, h => by
    rw [writtenOps] at hw
    cases h1 : op.written with
    | none => rw [h1] at hw; cases hw
    | some op' =>
      cases h2 : writtenOps ops with
      | none => rw [h1, h2] at hw; cases hw
      | some ops'' =>
        rw [h1, h2] at hw
        cases hw
        obtain ⟨s1, h3, h4⟩ := apply_shows hP hl hn h1 (hg _ List.mem_cons_self) h
        obtain ⟨s2, h5, h6⟩ := applyAll_shows hP hl hn h2 (fun o ho => hg o (List.mem_cons_of_mem _ ho)) h4
        refine ⟨s2, ?_, h6⟩
        rw [List.map_cons, Server.applyAll, h3]
        exact h5

theorem applyAll_append (s : Server) : ∀ (a b : List WireOp), s.applyAll S (a ++ b) =
    match s.applyAll S a with | .error e => .error e | .ok s => s.applyAll S b
  | [], b => rfl
  | op :: a, b => by
    rw [List.cons_append, Server.applyAll, Server.applyAll]
    cases op.apply S s with
    | error e => rfl
    | ok s' => exact applyAll_append s' a b

/-- Chunks that can be read do what all their operations do. -/
theorem bulks_eq (hdb : PlainStr db) : ∀ (chunks : List (List (BulkOp ParsedData))) (s : Server),
    (∀ op ∈ chunks.flatten, op.Writable F ∧ op.PlainDelete) → s.bulks F S db chunks = s.applyAll S (chunks.flatten.map (BulkOp.wire db))
  | [], s, _ => rfl
  | c :: cs, s, h => by
    have hc : ∀ op ∈ c, op.Writable F ∧ op.PlainDelete := fun op ho => h op (by simp [ho])
    obtain ⟨body, h1, h2⟩ := Props.C94_requests_partial F db c (fun op ho => (hc op ho).1) (fun op ho => (hc op ho).2) (fun _ => hdb)
    rw [Server.bulks, List.flatten_cons, List.map_append, applyAll_append]
    unfold Server.bulk
    rw [h1]
    dsimp only
    rw [h2]
    dsimp only
    cases s.applyAll S (c.map (BulkOp.wire db)) with
    | error e => rfl
    | ok s' => exact bulks_eq hdb cs s' (fun op ho => h op (by simp only [List.flatten_cons, List.mem_append]; exact .inr ho))

theorem writtenOps_ok : ∀ {ops : List (BulkOp (Option ParsedData))}, (∀ op ∈ ops, ∃ op', op.written = some op' ∧ GoodOp E F fields op') →
    ∃ ops', writtenOps ops = some ops' ∧ ∀ op ∈ ops', GoodOp E F fields op
  | [], _ => ⟨[], rfl, fun _ h => (nomatch h)⟩
  | op :: ops, h => by
    obtain ⟨op', h1, h2⟩ := h op List.mem_cons_self
    obtain ⟨ops', h3, h4⟩ := writtenOps_ok (fun o ho => h o (List.mem_cons_of_mem _ ho))
    refine ⟨op' :: ops', by rw [writtenOps, h1, h3], fun o ho => ?_⟩
    rcases List.mem_cons.1 ho with rfl | ho
    · exact h2
    · exact h4 o ho

/-! ## Reading -/

theorem wildcard_self (hdb : '*' ∉ db) (ix : Ix) : glob (wildcardName db) (indexName db ix) = true := (wildcard_match hdb db ix).2 (.inl rfl)

theorem arcWildcard_self (hdb : '*' ∉ db) (ix : Ix) : glob (arcWildcardName db) (indexName db ix) = !decide (ix = .latest) := by
  rw [Bool.eq_iff_iff, arcWildcard_match hdb]
  constructor
  · rintro (⟨_, n, rfl⟩ | h | ⟨t, h⟩)
    · rfl
    · exact absurd (congrArg List.length h) (by simp)
    · exact absurd (congrArg List.length h) (by simp)
  · intro h
    cases ix with
    | latest => simp at h
    | arc n => exact .inl ⟨rfl, n, rfl⟩

theorem glob_literal {p : PyStr} (hp : '*' ∉ p) (s : PyStr) : glob p s = true ↔ s = p := by
  have := glob_lit hp [] s
  rw [List.append_nil] at this
  rw [this]
  constructor
  · rintro ⟨t, rfl, ht⟩; rw [(glob_nil t).1 ht, List.append_nil]
  · rintro rfl; exact ⟨[], by simp, rfl⟩

theorem latest_self (hdb : '*' ∉ db) (ix : Ix) : glob (indexName db .latest) (indexName db ix) = decide (ix = .latest) := by
  have hs : '*' ∉ indexName db .latest := by
    rw [indexName_eq]
    simp only [List.mem_append, not_or]
    exact ⟨by decide, hdb, by decide⟩
  rw [Bool.eq_iff_iff, glob_literal hs, decide_eq_true_eq]
  exact ⟨fun e => (indexName_inj e).2, fun e => by rw [e]⟩

theorem hits_rel {es : ES (Option ParsedData)} {s : Server} (h : Related (indexName db) (IndexShows E fields) es s) :
    List.Forall₂ SentAs (es.flatMap (fun x => x.2.map Prod.snd)) (s.flatMap (fun x => x.2.docs.map Prod.snd)) := by
  induction h with
  | nil => exact .nil
  | @cons x y a b hxy h ih =>
    rw [List.flatMap_cons, List.flatMap_cons]
    refine List.rel_append ?_ ih
    rw [List.forall₂_map_left_iff, List.forall₂_map_right_iff]
    exact hxy.2.2.imp (fun _ _ e => e.2.sentAs)

theorem Shows.all (h : Shows E db fields es s) (hdb : '*' ∉ db) : List.Forall₂ SentAs es.all (s.hits (wildcardName db)) := by
  unfold ES.all Server.hits
  have := forall₂_filter (p := fun _ => true) (q := fun x : PyStr × JsonIndex => glob (wildcardName db) x.1)
    (fun x y e => by rw [e.1, wildcard_self hdb]) h.rel
  rw [List.filter_eq_self.2 (fun _ _ => rfl)] at this
  exact hits_rel this

theorem latest_docs {P : Type} : ∀ {es : ES P}, (akeys es).Nodup →
    (es.filter (fun x => decide (x.1 = .latest))).flatMap (fun x => x.2.map Prod.snd) = (es.docs .latest).map Prod.snd
  | [], _ => rfl
  | (ix, docs) :: es, h => by
    have h' : ix ∉ akeys es ∧ (akeys es).Nodup := List.nodup_cons.1 h
    unfold ES.docs
    rw [List.filter_cons, aget]
    by_cases hix : ix = .latest
    · subst hix
      rw [if_pos (by simp), if_pos rfl, List.flatMap_cons, List.filter_eq_nil_iff.2]
      · simp
      · intro x hx
        rw [decide_eq_true_eq]
        rintro e
        exact h'.1 (e ▸ List.mem_map_of_mem hx)
    · rw [if_neg (by simpa using hix), if_neg (fun e => hix e.symm)]
      exact latest_docs h'.2

theorem Shows.latest (h : Shows E db fields es s) (hdb : '*' ∉ db) :
    List.Forall₂ SentAs ((es.docs .latest).map Prod.snd) (s.hits (indexName db .latest)) := by
  rw [← latest_docs h.nodup]
  exact hits_rel (forall₂_filter (fun x y e => by rw [e.1, latest_self hdb]) h.rel)

theorem SentAs.read {d : Doc (Option ParsedData)} {e : Dict} (h : SentAs d e) :
    aget "id".toList e = some (.str d.id) ∧ intField "version".toList e = some d.version ∧ intField "next".toList e = d.next ∧
    (∀ v, versionQuery v e = d.inRange v) ∧ ∀ p, d.parsed = some p → hitData e = some (sentDict p.parsed) := by
  obtain ⟨p, hp, rfl⟩ := h
  obtain ⟨q, hq, rfl⟩ := Option.map_eq_some_iff.1 hp
  obtain ⟨id, version, gte, lt, next, parsed⟩ := d
  dsimp only at hq
  refine ⟨rfl, rfl, ?_, fun v => ?_, fun p e => ?_⟩
  · cases next <;> rfl
  · cases lt with
    | none =>
      have : versionQuery v (sentDict (Doc.toDict ⟨id, version, gte, none, next, q⟩)) = jsonInRange [("gte".toList, .int gte)] v := rfl
      rw [this]
      simp [jsonInRange, Doc.inRange]
    | some l =>
      have : versionQuery v (sentDict (Doc.toDict ⟨id, version, gte, some l, next, q⟩)) =
        jsonInRange [("gte".toList, .int gte), ("lt".toList, .int l)] v := rfl
      rw [this]
      simp [jsonInRange, Doc.inRange]
  · dsimp only at e
    rw [hq] at e
    cases e
    rfl

theorem forall₂_filterMap {A B C : Type} {T : A → B → Prop} {p : A → Option C} {q : B → Option C} (hpq : ∀ x y, T x y → q y = p x) {a : List A}
    {b : List B} (h : List.Forall₂ T a b) : b.filterMap q = a.filterMap p := by
  induction h with
  | nil => rfl
  | @cons x y a b hxy h ih => rw [List.filterMap_cons, List.filterMap_cons, hpq x y hxy, ih]

theorem Shows.version (h : Shows E db fields es s) (hdb : '*' ∉ db) : s.version db = es.version := by
  unfold Server.version ES.version
  dsimp only
  rw [forall₂_filterMap (p := fun d : Doc (Option ParsedData) => some d.version) (fun x y e => e.read.2.1) (h.all hdb),
    forall₂_filterMap (p := fun d : Doc (Option ParsedData) => d.next) (fun x y e => e.read.2.2.1) (h.all hdb)]
  congr 2
  induction es.all with
  | nil => rfl
  | cons d l ih => rw [List.filterMap_cons, List.map_cons, ih]

theorem arcs_rel (hdb : '*' ∉ db) {es : ES (Option ParsedData)} {s : Server} (h : Related (indexName db) (IndexShows E fields) es s) :
    pyInts ((s.filter (fun x => glob (arcWildcardName db) x.1)).map (fun x => lastPart x.1)) = some es.arcs := by
  induction h with
  | nil => rfl
  | @cons x y a b hxy h ih =>
    obtain ⟨ix, docs⟩ := x
    obtain ⟨name, j⟩ := y
    obtain ⟨rfl, _⟩ := hxy
    rw [List.filter_cons]
    dsimp only
    rw [arcWildcard_self hdb]
    cases ix with
    | latest =>
      rw [if_neg (by simp), ih]
      rfl
    | arc n =>
      rw [if_pos (by simp), List.map_cons, pyInts, ih, lastPart_arc, pyInt_digits]
      rfl

theorem Shows.arcStatus (h : Shows E db fields es s) (hdb : '*' ∉ db) : s.arcStatus db = .ok es.arcStatus := by
  unfold Server.arcStatus ES.arcStatus
  rw [arcs_rel hdb h.rel]
  dsimp only
  cases hm : es.arcs.max? with
  | none => rfl
  | some n =>
    dsimp only
    rcases h.rel.aget (fun _ _ e => (indexName_inj e).2) (.arc n) with ⟨h1, _⟩ | ⟨v, w, h1, h2, h3⟩
    · exfalso
      have hn := List.max?_mem hm
      obtain ⟨x, hx, e⟩ := List.mem_filterMap.1 hn
      obtain ⟨ix, docs⟩ := x
      cases ix with
      | latest => cases e
      | arc k => cases e; exact aget_eq_none_iff.1 h1 (mem_akeys_of_mem hx)
    · rw [h2]
      unfold ES.docs
      rw [h1]
      dsimp only [Option.getD]
      rw [h3.2.length_eq]

theorem Shows.deleteArcs (h : Shows E db fields es s) (hdb : '*' ∉ db) : Shows E db fields es.deleteArcs (s.deleteArcs db) :=
  ⟨(List.filter_sublist.map _).nodup h.nodup,
    forall₂_filter (fun x y e => by rw [e.1, arcWildcard_self hdb, Bool.not_not]) h.rel⟩

theorem Shows.search (h : Shows E db fields es s) (hdb : '*' ∉ db) (at_ : SearchAt) : List.Forall₂ SentAs (found es at_) (s.search db at_) := by
  have hf : ∀ v, List.Forall₂ SentAs (es.all.filter (fun d => d.inRange v)) ((s.hits (wildcardName db)).filter (versionQuery v)) := fun v =>
    forall₂_filter (fun x y e => (e.read.2.2.2.1 v).symm) (h.all hdb)
  cases at_ with
  | latest => exact h.latest hdb
  | all => exact h.all hdb
  | version v =>
    unfold found ES.search Server.search
    dsimp only
    rw [h.version hdb]
    cases es.version with
    | none => exact hf v
    | some c =>
      dsimp only
      split
      · exact h.latest hdb
      · exact hf v

theorem Shows.searchFor (h : Shows E db fields es s) (hdb : '*' ∉ db) (at_ : SearchAt) (id : PyStr) :
    List.Forall₂ SentAs (foundFor es at_ id) (s.searchFor db at_ id) :=
  forall₂_filter (fun x y e => by rw [e.read.1]; simp) (h.search hdb at_)

theorem Shows.one (h : Shows E db fields es s) (hdb : '*' ∉ db) {at_ : SearchAt} {id : PyStr} {d : Doc (Option ParsedData)} {p : ParsedData}
    (hd : foundFor es at_ id = [d]) (hp : d.parsed = some p) :
    ∃ hit, s.searchFor db at_ id = [hit] ∧ hitData hit = some (sentDict p.parsed) := by
  have h5 := h.searchFor hdb at_ id
  rw [hd, List.forall₂_cons_left_iff] at h5
  obtain ⟨hit, l, h6, h7, e⟩ := h5
  rw [List.forall₂_nil_left_iff.1 h7] at e
  exact ⟨hit, e, h6.read.2.2.2.2 p hp⟩

theorem Shows.nothing (h : Shows E db fields es s) (hdb : '*' ∉ db) {at_ : SearchAt} {id : PyStr} (hd : foundFor es at_ id = []) :
    s.searchFor db at_ id = [] := by
  have h5 := h.searchFor hdb at_ id
  rw [hd] at h5
  exact List.forall₂_nil_left_iff.1 h5

/-! ## Syncs -/

/-- The operations that a sync has to do can be sent and are taken. -/
def SyncGood (E : ParseEnv) (F : FloatText) (fields : List (List PyStr)) (maxDocs : Nat) (db : PyStr) (m : Mongo) : Prop :=
  ∀ sel after arc ops arc', generateOps (realParser E) maxDocs (committedOptionsOf db m) after arc ((m.data db).filter sel) = .ok (ops, arc') →
    ∀ op ∈ ops, ∃ op', op.written = some op' ∧ GoodOp E F fields op'

theorem sync_shows (hP : PlacesOk E S) (hl : S.NotLonger) (hn : fields.length ≤ 443) (hdb : '*' ∉ db) (hpl : PlainStr db) {maxDocs chunkSize : Nat}
    (hc : 1 ≤ chunkSize) {m : Mongo} (hg : SyncGood E F fields maxDocs db m) (h : Shows E db fields es s) {resync : Bool} {es' : ES (Option ParsedData)}
    (hs : sync (realParser E) maxDocs db resync m es = .ok es') :
    ∃ s', s.sync E F S maxDocs chunkSize db resync m = .ok s' ∧ Shows E db fields es' s' := by
  unfold sync syncOps at hs
  unfold Server.sync
  by_cases hd : (!hasData db m) = true
  · rw [if_pos hd] at hs ⊢
    cases hs
    exact ⟨s, rfl, h⟩
  · rw [if_neg hd] at hs ⊢
    have hv : scopeSince db resync m (s.version db) = syncScope db resync m es := by rw [h.version hdb]; rfl
    rw [hv]
    cases hsc : syncScope db resync m es with
    | error e => rw [hsc] at hs; cases hs
    | ok x =>
      rw [hsc] at hs
      cases x with
      | none => cases hs; exact ⟨s, rfl, h⟩
      | some x =>
        obtain ⟨sel, lastSync⟩ := x
        dsimp only at hs ⊢
        have h' : Shows E db fields (if resync then es.deleteArcs else es) (if resync then s.deleteArcs db else s) := by
          split
          · exact h.deleteArcs hdb
          · exact h
        generalize (if resync then es.deleteArcs else es) = es1 at hs h'
        generalize (if resync then s.deleteArcs db else s) = s1 at h' ⊢
        rw [h'.arcStatus hdb]
        dsimp only
        cases hgen : generateOps (realParser E) maxDocs (committedOptionsOf db m) lastSync es1.arcStatus ((m.data db).filter sel) with
        | error e => rw [hgen] at hs; cases hs
        | ok x =>
          obtain ⟨ops, arc'⟩ := x
          rw [hgen] at hs
          dsimp only at hs ⊢
          cases hs
          obtain ⟨ops', k1, k2⟩ := writtenOps_ok (hg _ _ _ _ _ hgen)
          rw [k1]
          dsimp only
          have hfl := partition_flatten hc ops'
          rw [bulks_eq hpl _ _ (fun op ho => by rw [hfl] at ho; exact ⟨(k2 op ho).writable, (k2 op ho).plain⟩), hfl]
          exact applyAll_shows hP hl hn k1 k2 h'

theorem resyncArcs_shows (hP : PlacesOk E S) (hl : S.NotLonger) (hn : fields.length ≤ 443) (hdb : '*' ∉ db) (hpl : PlainStr db)
    {maxDocs chunkSize : Nat} (hc : 1 ≤ chunkSize) {m : Mongo} (hg : SyncGood E F fields maxDocs db m) (h : Shows E db fields es s)
    {es' : ES (Option ParsedData)} (hs : resyncArcs (realParser E) maxDocs db m es = .ok es') :
    ∃ s', s.resyncArcs E F S maxDocs chunkSize db m = .ok s' ∧ Shows E db fields es' s' := by
  unfold resyncArcs at hs
  unfold Server.resyncArcs
  dsimp only at hs ⊢
  have h' := h.deleteArcs hdb
  generalize es.deleteArcs = es1 at hs h'
  generalize s.deleteArcs db = s1 at h' ⊢
  rw [h'.arcStatus hdb]
  dsimp only
  cases hgen : generateOps (realParser E) maxDocs (committedOptionsOf db m) none es1.arcStatus ((m.data db).filter (fun r => r.version.isSome)) with
  | error e => rw [hgen] at hs; cases hs
  | ok x =>
    obtain ⟨ops, arc'⟩ := x
    rw [hgen] at hs
    dsimp only at hs ⊢
    cases hs
    have hf : (fun op : BulkOp (Option ParsedData) => decide (indexName db op.ix ≠ indexName db .latest)) = fun op => decide (op.ix ≠ .latest) := by
      funext op
      rw [decide_eq_decide]
      exact not_congr ⟨fun e => (indexName_inj e).2, fun e => by rw [e]⟩
    rw [hf]
    obtain ⟨ops', k1, k2⟩ := writtenOps_ok (ops := ops.filter (fun op => decide (op.ix ≠ .latest)))
      (fun op hop => hg _ _ _ _ _ hgen op (List.mem_filter.1 hop).1)
    rw [k1]
    dsimp only
    have hfl := partition_flatten hc ops'
    rw [bulks_eq hpl _ _ (fun op ho => by rw [hfl] at ho; exact ⟨(k2 op ho).writable, (k2 op ho).plain⟩), hfl]
    exact applyAll_shows hP hl hn k1 k2 h'

theorem calls_shows (hP : PlacesOk E S) (hl : S.NotLonger) (hn : fields.length ≤ 443) (hdb : '*' ∉ db) (hpl : PlainStr db) {maxDocs chunkSize : Nat}
    (hc : 1 ≤ chunkSize) : ∀ {cs : List (SyncCall × Mongo)}, (∀ cm ∈ cs, SyncGood E F fields maxDocs db cm.2) → ∀ {es s es'}, Shows E db fields es s →
    runInOrder (realParser E) maxDocs db es cs = .ok es' →
    ∃ s', Server.calls E F S maxDocs chunkSize db s cs = .ok s' ∧ Shows E db fields es' s'
  | [], _, es, s, es', h, hs => by cases hs; exact ⟨s, rfl, h⟩
  | (c, m) :: cs, hg, es, s, es', h, hs => by
    rw [runInOrder] at hs
    cases h1 : c.run (realParser E) maxDocs db m es with
    | error e => rw [h1] at hs; cases hs
    | ok es1 =>
      rw [h1] at hs
      have hgm := hg (c, m) List.mem_cons_self
      obtain ⟨s1, h2, h3⟩ : ∃ s1, c.send E F S maxDocs chunkSize db m s = .ok s1 ∧ Shows E db fields es1 s1 := by
        cases c with
        | sync resync => exact sync_shows hP hl hn hdb hpl hc hgm h h1
        | resyncArcs => exact resyncArcs_shows hP hl hn hdb hpl hc hgm h h1
      rw [Server.calls, h2]
      exact calls_shows hP hl hn hdb hpl hc (fun m hm => hg m (List.mem_cons_of_mem _ hm)) h3 hs

theorem SentAs.json {d : Doc (Option ParsedData)} {e : Dict} (h : SentAs d e) : d.json = some e := by
  obtain ⟨p, h1, rfl⟩ := h
  unfold Doc.json
  rw [h1]
  rfl

theorem sentAs_map {l : List (Doc (Option ParsedData))} {k : List Dict} (h : List.Forall₂ SentAs l k) : k.map some = l.map Doc.json := by
  induction h with
  | nil => rfl
  | cons h1 h2 ih => rw [List.map_cons, List.map_cons, ih, h1.json]

theorem syncs_shows (hP : PlacesOk E S) (hl : S.NotLonger) (hn : fields.length ≤ 443) (hdb : '*' ∉ db) (hpl : PlainStr db) {maxDocs chunkSize : Nat}
    (hc : 1 ≤ chunkSize) : ∀ {ms : List Mongo}, (∀ m ∈ ms, SyncGood E F fields maxDocs db m) → ∀ {es s es'}, Shows E db fields es s →
    runSyncs (realParser E) maxDocs db es ms = .ok es' →
    ∃ s', Server.syncs E F S maxDocs chunkSize db s ms = .ok s' ∧ Shows E db fields es' s'
  | [], _, es, s, es', h, hs => by cases hs; exact ⟨s, rfl, h⟩
  | m :: ms, hg, es, s, es', h, hs => by
    rw [runSyncs] at hs
    cases h1 : sync (realParser E) maxDocs db false m es with
    | error e => rw [h1] at hs; cases hs
    | ok es1 =>
      rw [h1] at hs
      obtain ⟨s1, h2, h3⟩ := sync_shows hP hl hn hdb hpl hc (hg m List.mem_cons_self) h h1
      rw [Server.syncs, h2]
      exact syncs_shows hP hl hn hdb hpl hc (fun m hm => hg m (List.mem_cons_of_mem _ hm)) h3 hs

theorem iterLoop_versions {diffs : List (Int × List DiffOp)} : ∀ {vs : List Int} {base items}, iterLoop diffs base vs = .ok items →
    ∀ v d, (some v, d) ∈ items → v ∈ vs
  | [], base, items, h, v, d, hm => by cases h; cases hm
  | w :: vs, base, items, h, v, d, hm => by
    rw [iterLoop] at h
    cases h1 : aget w diffs with
    | none => rw [h1] at h; cases h
    | some ops =>
      rw [h1] at h
      dsimp only at h
      cases h2 : patchDict base ops with
      | error e => rw [h2] at h; cases h
      | ok b =>
        rw [h2] at h
        dsimp only at h
        cases h3 : iterLoop diffs b vs with
        | error e => rw [h3] at h; cases h
        | ok rest =>
          rw [h3] at h
          cases h
          rcases List.mem_cons.1 hm with e | hm
          · cases e; exact List.mem_cons_self
          · exact List.mem_cons_of_mem _ (iterLoop_versions h3 v d hm)

theorem iter_versions {r : MongoRecord} {items} (h : r.iter = .ok items) {v : Int} (hv : v ∈ akeys (committedOf items)) : v ∈ r.getVersions := by
  obtain ⟨x, hx, rfl⟩ := List.mem_map.1 hv
  obtain ⟨y, hy, e⟩ := List.mem_filterMap.1 hx
  obtain ⟨w, d⟩ := y
  cases w with
  | none => cases e
  | some w =>
    cases e
    unfold MongoRecord.getVersions
    dsimp only
    rw [if_neg (by simp), sortAsc, (sortBy_perm _ _).mem_iff, List.mem_append]
    unfold MongoRecord.iter at h
    cases h1 : iterLoop r.diffs r.data (sortDesc (akeys r.diffs)) with
    | error e => rw [h1] at h; cases h
    | ok rest =>
      rw [h1] at h
      cases h
      rcases List.mem_cons.1 hy with e | hy
      · right
        rw [← (Prod.mk.inj e).1]
        simp
      · left
        have := iterLoop_versions h1 w d hy
        rwa [sortDesc, (sortBy_perm _ _).mem_iff] at this

theorem options_versions {m : Mongo} {v : Int} (h : v ∈ akeys (committedOptionsOf db m)) : IsVersion m db v := by
  obtain ⟨x, hx, rfl⟩ := List.mem_map.1 h
  obtain ⟨w, o⟩ := x
  obtain ⟨_, d, h1, h2, h3⟩ := (getOptions_keys (db := db) (m := m) (some w)).1 (List.mem_map_of_mem (committedOptionsOf_mem.1 hx))
  exact .inr ⟨d, h1, h2, h3⟩

/-- What is sendable after calls can be sent and is taken. -/
theorem syncGood (hS : E.ScalarHints) (hE : LeavesOk E (fun v => IntFits v ∧ FloatFits F v)) {U : Unicode} (hU : U.Sane) {calls : List ApiCall}
    (ho : Orderly calls) (hv : ∃ v, IsVersion (afterCalls U db calls) db v) (hs : Sendable E F fields db (afterCalls U db calls)) (maxDocs : Nat) :
    SyncGood E F fields maxDocs db (afterCalls U db calls) := by
  intro sel after arc ops arc' hg op hop
  obtain ⟨v', hv⟩ := hv
  obtain ⟨r, hr, items, hi, h1, h2⟩ := generateOps_from hg op hop
  have hr := (List.mem_filter.1 hr).1
  cases op with
  | delete ix docId =>
    have h1 : docId = r.id := h1
    subst h1
    exact ⟨.delete ix r.id, rfl, trivial, (hs.ids r hr).1, fun _ _ _ e => (nomatch e)⟩
  | index ix docId d =>
    have h1 : DocFrom r.id _ d := h1
    obtain ⟨v, data, w, o, k1, k2, k3⟩ := h2 ix docId d rfl
    have hli := (life (K := fun _ => plainClass.named) (U := U) (db := db) (fun c _ => fits_named_plain hU c.stream) ho).toLifeInv
    have hh := hli.hist r.id
    rw [(life_dbOk ho hv).hist_of hr hi] at hh
    have hq := hh.left_mem k1
    have k0 : ∃ x ∈ items, x.2 = data := by
      obtain ⟨x, hx, e⟩ := List.mem_filterMap.1 k1
      refine ⟨x, hx, ?_⟩
      cases hx1 : x.1 <;> simp_all
    obtain ⟨x, hx, rfl⟩ := k0
    obtain ⟨p, hp⟩ : ∃ p, (realParser E).parse x.2 o = some p := by
      obtain ⟨p, hp⟩ := parse_total (E := E) (o := o) hS (plainClass.named.wf hq)
      have hp : parse E o x.2 = .ok p := hp
      refine ⟨⟨canonDict p.parsed, p.dataTypes, p.parsedTypes⟩, ?_⟩
      simp only [realParser, hp]
    refine ⟨.index ix docId ⟨d.id, d.version, d.gte, d.lt, d.next, p⟩, ?_, ?_, trivial, ?_⟩
    · have : d.written = some ⟨d.id, d.version, d.gte, d.lt, d.next, p⟩ := by
        unfold Doc.written
        rw [k3, hp]
        rfl
      exact congrArg (Option.map (BulkOp.index ix docId)) this
    · refine Props.C94_stored F E hE o x.2 (hs.values r hr items hi x hx) p hp ix docId _ rfl (fun v hv => ?_)
      have : IsVersion (afterCalls U db calls) db v := by
        rcases h1.versions v hv with h | h
        · exact .inl ⟨r, hr, iter_versions hi h⟩
        · exact options_versions h
      have := hs.versions v this
      exact ⟨this.1, by omega⟩
    · rintro _ _ _ e
      cases e
      have ht := hs.types r hr items hi x hx (w, o) k2 p hp
      refine ⟨⟨x.2, o, plainClass.named.wf hq, hq.2, hs.options _ k2, hs.names r hr items hi x hx, hp⟩, ?_, ht.1, ht.2⟩
      show utf8Len d.id ≤ 32766
      rw [h1.id]
      exact (hs.ids r hr).2

/-- A state between calls is a state after calls. -/
theorem states_calls {U : Unicode} : ∀ (parts : List (List ApiCall)) (first : List ApiCall), Orderly (first ++ parts.flatten) →
    ∀ m ∈ statesOf U db first parts, ∃ calls, m = afterCalls U db calls ∧ Orderly calls
  | [], first, ho, m, hm => by
    rw [List.flatten_nil, List.append_nil] at ho
    rw [statesOf, List.mem_singleton] at hm
    exact ⟨first, hm, ho⟩
  | part :: parts, first, ho, m, hm => by
    rw [List.flatten_cons, ← List.append_assoc] at ho
    rcases List.mem_cons.1 hm with rfl | hm
    · exact ⟨first, rfl, ho.left.left⟩
    · exact states_calls parts (first ++ part) ho m hm

end

end Splitgill
