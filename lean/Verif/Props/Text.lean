import Verif.Proof.Text
import Verif.Props.Filter
/-!
# C82: full text, from calls of the API to what is found

What is asked for is described in `Verif.Spec.Text`; `Q.analyse` stands for the analyzer of Elasticsearch.
-/

namespace Splitgill.Props
open Splitgill

/-- **C82** for the document of a record: `match_query(query, field)` matches it exactly if a word of the query (with
`operator="and"`: each) is a word of a text in the field; without a field, of a text anywhere in the data, the id included. -/
theorem C82_match (E : ParseEnv) (hE : E.IgnoresOrder) (o : ParsingOptions) (d : Dict) (pd : ParsedData)
    (hw : (Value.dict d).wf = true) (hf : FieldNames (.dict d)) (h : parse E o d = .ok pd) (Q : QueryEnv) (query : PyStr)
    (field : Option PyStr) (every : Bool) :
    (matchQuery query field every).matches Q pd.parsed = true ↔ MatchesText Q.analyse every query (IsTextOf E o d field) :=
  match_parse hE hw hf h Q query field every

/-- **C82**: if a value is stored in a field, then a query that has one of the words of its text finds the document, in the field and
without a field. -/
theorem C82_stored_found (E : ParseEnv) (hE : E.IgnoresOrder) (o : ParsingOptions) (d : Dict) (pd : ParsedData)
    (hw : (Value.dict d).wf = true) (hf : FieldNames (.dict d)) (h : parse E o d = .ok pd) (Q : QueryEnv) (p : Path) (v : Value)
    (hp : getAt p (.dict d) = some v) (hv : v.isIndexed = true) (query w : PyStr) (h1 : w ∈ Q.analyse (textOf E o v))
    (h2 : w ∈ Q.analyse query) :
    (matchQuery query (some (fieldPath p))).matches Q pd.parsed = true ∧ (matchQuery query none).matches Q pd.parsed = true :=
  ⟨(C82_match E hE o d pd hw hf h Q query _ false).2 ⟨List.ne_nil_of_mem h2, w, h2, _, ⟨p, v, by rintro f ⟨⟩; rfl, hp, hv, rfl⟩, h1⟩,
    (C82_match E hE o d pd hw hf h Q query _ false).2 ⟨List.ne_nil_of_mem h2, w, h2, _, ⟨p, v, by rintro f ⟨⟩, hp, hv, rfl⟩, h1⟩⟩

/-- **C82**, as it should be: after a sync, `search(v).filter(match_query(query, field))` finds each record once whose data as of `v`
has the words, and no other. -/
def C82_full : Prop :=
  ∀ (E : ParseEnv), E.IgnoresOrder → E.ScalarHints → ∀ (U : Unicode), U.Sane → ∀ (maxDocs : Nat) (db : PyStr) (calls : List ApiCall),
    Orderly calls → (∃ v, IsVersion (afterCalls U db calls) db v) → NoPending db (afterCalls U db calls) →
    ∃ es, sync (realParser E) maxDocs db false (afterCalls U db calls) [] = .ok es ∧
      ∀ (Q : QueryEnv) (query : PyStr) (field : Option PyStr) (every : Bool) (v : Int),
        (foundIds (es.searchFor Q (.version v) (.match_ (matchQuery query field every)))).Nodup ∧
        ∀ id, id ∈ foundIds (es.searchFor Q (.version v) (.match_ (matchQuery query field every))) ↔
          HoldsAsOf (ingested U db calls) (committedOptionsOf db (afterCalls U db calls)) v id
            (fun a o => MatchesText Q.analyse every query (IsTextOf E o a field))

/-- **C82** (what holds) after one sync: as above if no two data given for a record hold equal but different scalars at the same
place; records with uncommitted data are not found. -/
theorem C82_first_sync_partial (E : ParseEnv) (hE : E.IgnoresOrder) (hS : E.ScalarHints) (U : Unicode) (hU : U.Sane) (maxDocs : Nat)
    (db : PyStr) (calls : List ApiCall) (ho : Orderly calls) (hv : ∃ v, IsVersion (afterCalls U db calls) db v)
    (hn : NoPunsAmong U (calls.flatMap ApiCall.stream)) :
    ∃ es, sync (realParser E) maxDocs db false (afterCalls U db calls) [] = .ok es ∧
      ∀ (Q : QueryEnv) (query : PyStr) (field : Option PyStr) (every : Bool) (v : Int),
        (foundIds (es.searchFor Q (.version v) (.match_ (matchQuery query field every)))).Nodup ∧
        ∀ id, id ∈ foundIds (es.searchFor Q (.version v) (.match_ (matchQuery query field every))) ↔
          HoldsAsOf (ingested U db calls) (committedOptionsOf db (afterCalls U db calls)) v id
            (fun a o => MatchesText Q.analyse every query (IsTextOf E o a field)) := by
  obtain ⟨es, hi, h1, hl, hm, h2, h3⟩ := setup_first E U hU maxDocs db calls ho hv hn
  exact ⟨es, h1, fun Q query field every v => hl.asked_text hE hS hm h2 h3 Q query field every v⟩

/-- **C82** (what holds) after any calls and syncs between them, under the conditions of C70. -/
theorem C82_syncs_partial (E : ParseEnv) (hE : E.IgnoresOrder) (hS : E.ScalarHints) (U : Unicode) (hU : U.Sane) (maxDocs : Nat)
    (db : PyStr) (first : List ApiCall) (parts : List (List ApiCall)) (ho : Orderly (first ++ parts.flatten))
    (hv : ∃ v, IsVersion (afterCalls U db first) db v) (he : EachPart (NoUpdateDelete db) U db first parts)
    (hp : ∀ m ∈ statesOf U db first parts, NoPending db m)
    (hn : NoPunsAmong U ((first ++ parts.flatten).flatMap ApiCall.stream)) :
    ∃ es, runSyncs (realParser E) maxDocs db [] (statesOf U db first parts) = .ok es ∧
      ∀ (Q : QueryEnv) (query : PyStr) (field : Option PyStr) (every : Bool) (v : Int),
        (foundIds (es.searchFor Q (.version v) (.match_ (matchQuery query field every)))).Nodup ∧
        ∀ id, id ∈ foundIds (es.searchFor Q (.version v) (.match_ (matchQuery query field every))) ↔
          HoldsAsOf (ingested U db (first ++ parts.flatten)) (committedOptionsOf db (afterCalls U db (first ++ parts.flatten))) v id
            (fun a o => MatchesText Q.analyse every query (IsTextOf E o a field)) := by
  obtain ⟨es, hi, h1, hl, hm, h2, h3, _⟩ := setup_syncs E hE U hU maxDocs db first parts ho hv he hp hn
  exact ⟨es, h1, fun Q query field every v => hl.asked_text hE hS hm h2 h3 Q query field every v⟩

set_option maxRecDepth 100000 in
/-- **C82 does not hold in full**: the older version of the record of C77 is indexed with `True` instead of `1` (C68), so a search for
the word `true` finds it. -/
theorem C82_refuted : ¬ C82_full := by
  intro h
  obtain ⟨es, h1, h2⟩ := h exEnv' exEnv'_order exEnv'_scalar asciiU asciiU_sane 10 ['x'] exFilterPun
    ⟨by decide +kernel, by
      intro c hc
      simp only [exFilterPun, exPun1, exPun3, List.cons_append, List.nil_append, List.mem_cons, List.not_mem_nil, or_false] at hc
      rcases hc with rfl | rfl | rfl <;> unfold NoSpan <;> decide⟩
    ⟨1, .inr ⟨(afterCalls asciiU ['x'] exFilterPun).options.head (by decide +kernel), by decide +kernel, by decide +kernel, by decide +kernel⟩⟩
    (by
      have : ∀ r ∈ (afterCalls asciiU ['x'] exFilterPun).data ['x'], r.version ≠ none := by decide +kernel
      exact this)
  have hes : exIndexed exFilterPun = es := by unfold exIndexed; rw [h1]
  subst hes
  have hf : ['a'] ∈ foundIds ((exIndexed exFilterPun).searchFor exQuery (.version 2) (.match_ (matchQuery "true".toList none))) := by
    decide +kernel
  obtain ⟨_, a, o, ha, ho, _, w, hw, s, ⟨p, x, _, g2, g3, rfl⟩, g4⟩ := ((h2 exQuery "true".toList none false 2).2 ['a']).1 hf
  have e : (ingested asciiU ['x'] exFilterPun ['a']).committed =
    [(4, [(['x'], .bool true), (['y'], .int 2), ("_id".toList, .str ['a'])]), (2, [(['x'], .int 1), ("_id".toList, .str ['a'])])] := by
    decide +kernel
  rw [e] at ha
  have ha' : a = [(['x'], .int 1), ("_id".toList, .str ['a'])] := by
    obtain ⟨w, hw, hle, _⟩ := ha
    simp only [List.mem_cons, Prod.mk.injEq, List.not_mem_nil, or_false] at hw
    rcases hw with ⟨rfl, _⟩ | ⟨rfl, rfl⟩
    · omega
    · rfl
  subst ha'
  have hx : x = .int 1 ∨ x = .str ['a'] := by
    cases p with
    | nil => cases g2; cases g3
    | cons c p =>
      cases c with
      | idx i => cases g2
      | key k =>
        rw [getAt] at g2
        obtain ⟨y, hy, g2⟩ := Option.bind_eq_some_iff.1 g2
        have := aget_mem hy
        simp only [List.mem_cons, Prod.mk.injEq, List.not_mem_nil, or_false] at this
        rcases this with ⟨_, rfl⟩ | ⟨_, rfl⟩ <;> cases p <;> simp [getAt] at g2 <;> simp [← g2]
  have hw' : exQuery.analyse "true".toList = ["true".toList] := by decide +kernel
  rw [hw', List.mem_singleton] at hw
  subst hw
  rcases hx with rfl | rfl
  · have : exQuery.analyse (textOf exEnv' o (.int 1)) = [['1']] := by
      rw [show textOf exEnv' o (.int 1) = ['1'] from by rw [← strValue_eq]; rfl]
      decide +kernel
    rw [this] at g4
    exact absurd g4 (by decide)
  · have : exQuery.analyse (textOf exEnv' o (.str ['a'])) = [['a']] := by
      rw [show textOf exEnv' o (.str ['a']) = ['a'] from rfl]
      decide +kernel
    rw [this] at g4
    exact absurd g4 (by decide)

/-- Two records with words in nested lists and in numbers. -/
def exWords : List ApiCall :=
  [.ingest none [⟨['a'], [(.str ['x'], .list [.str "Red Fox".toList, .dict [(.str ['y'], .str "small bear".toList)]])]⟩,
    ⟨['b'], [(.str ['x'], .str "fox".toList), (.str ['n'], .int 12)]⟩] true 1]

/-- The ids that are found. -/
def exWordsFound (query : PyStr) (field : Option PyStr) (every : Bool) : List PyStr :=
  foundIds ((exIndexed exWords).searchFor exQuery (.version 1) (.match_ (matchQuery query field every)))

set_option maxRecDepth 100000 in
/-- The hypotheses hold for these calls, and for those of C70 as shown there, and these records are found. -/
example : Orderly exWords ∧ (∃ v, IsVersion (afterCalls asciiU ['x'] exWords) ['x'] v) ∧
    NoPunsAmong asciiU (exWords.flatMap ApiCall.stream) ∧
    exWordsFound "FOX".toList (some ['x']) false = [['a'], ['b']] ∧ exWordsFound "fox bear".toList (some ['x']) true = [] ∧
    exWordsFound "fox bear".toList none true = [['a']] ∧ exWordsFound "bear".toList (some "x.y".toList) false = [['a']] ∧
    exWordsFound "12 wolf".toList none false = [['b']] ∧ exWordsFound " ".toList none true = [] := by
  refine ⟨⟨by decide +kernel, ?_⟩, ⟨1, .inr ⟨(afterCalls asciiU ['x'] exWords).options.head (by decide +kernel), by decide +kernel,
    by decide +kernel, by decide +kernel⟩⟩, ?_, by decide +kernel, by decide +kernel, by decide +kernel, by decide +kernel,
    by decide +kernel, by decide +kernel⟩
  · intro c hc
    simp only [exWords, List.mem_cons, List.not_mem_nil, or_false] at hc
    subst hc
    unfold NoSpan
    decide
  · have hrefl : ∀ v : Value, NoPun v v := by
      intro v p x y hx hy _ _ _
      rw [hx] at hy
      exact Option.some.inj hy
    intro r hr r' hr' e
    simp only [exWords, List.flatMap_cons, List.flatMap_nil, List.append_nil, ApiCall.stream, List.mem_cons, List.not_mem_nil, or_false] at hr hr'
    rcases hr with rfl | rfl <;> rcases hr' with rfl | rfl <;> first | exact hrefl _ | exact absurd e (by decide)

end Splitgill.Props
