import Verif.Proof.Index3
/-!
# C29: the documents of a record

`X` is any parser: any function of data and options, with any equality of results.
-/

namespace Splitgill.Props
open Splitgill

/-- C29 in full: for any history and options history `RecordVersions.build` makes documents that divide the
time. -/
def C29_full : Prop :=
  ∀ (P : Type) (X : Parser P) (record : MongoRecord) (hist : List (Int × Dict)) (opts : List (Int × ParsingOptions)),
    record.iter = .ok (hist.map (fun vd => (some vd.1, vd.2))) → ValidHist hist → ValidOptions opts →
    ∃ rvs, build X record opts = .ok rvs ∧ PartitionsTime X record.id hist opts (createDocs rvs)

/-- A parser for examples: it keeps what it is given. -/
def exParser : Parser (Dict × ParsingOptions) where
  parse d o := (d, o)
  eq p q := decide (p.1 = q.1) && p.2.pyEq q.2

/-- Options for examples, with a keyword length. -/
def exOpts (n : Int) : ParsingOptions := { defaultOptions with keywordLength := n }

set_option maxRecDepth 100000 in
/-- **C29 does not hold in full**: with options of versions 1 and 2 and a record created at version 3, the
document covering version 3 is parsed with the options of version 1. The loop skips all options before
the first data, after starting with the oldest ones. -/
theorem C29_refuted : ¬ C29_full := by
  intro h
  obtain ⟨rvs, h1, h2⟩ := h _ exParser ⟨['a'], some 3, [(['x'], .int 1)], []⟩ [(3, [(['x'], .int 1)])]
    [(1, exOpts 10), (2, exOpts 20)] rfl ⟨by simp, by simp, by simp⟩ ⟨by simp, by simp⟩
  have e : build exParser ⟨['a'], some 3, [(['x'], .int 1)], []⟩ [(1, exOpts 10), (2, exOpts 20)] =
      .ok [⟨['a'], 3, ([(['x'], .int 1)], exOpts 10), none⟩] := rfl
  rw [e] at h1; cases h1
  have := h2.content 3 _ (List.mem_singleton.2 rfl) ⟨Int.le_refl _, by simp [RecordVersion.createDoc, RecordVersion.versionEnd]⟩
    [(['x'], .int 1)] (exOpts 20) ⟨3, by simp, by simp, by simp⟩ (.inl ⟨2, by simp, by simp, by
      intro w y hm _; simp only [List.mem_cons, Prod.mk.injEq, List.not_mem_nil, or_false] at hm; omega⟩)
  rcases this with h | h
  · exact absurd h (by decide)
  · exact absurd h (by decide)

/-- What holds of C29 for every history and options history: the documents divide the time, with the options that
the code looks at (`effectiveOptions`: not those between the oldest ones and the creation of the record)
in place of all options. -/
theorem C29_effective_partial {P : Type} (X : Parser P) (record : MongoRecord) (hist : List (Int × Dict))
    (opts : List (Int × ParsingOptions)) (hi : record.iter = .ok (hist.map (fun vd => (some vd.1, vd.2))))
    (hh : ValidHist hist) (ho : ValidOptions opts) :
    ∃ rvs, build X record opts = .ok rvs ∧
      PartitionsTime X record.id hist (effectiveOptions hist opts) (createDocs rvs) := by
  obtain ⟨rvs, h1, h2⟩ := buildFrom_partitions (X := X) (id := record.id) hh ho
  exact ⟨rvs, by rw [build_eq_buildFrom hi hh.nodup]; exact h1, h2⟩

/-- **C29**, when at most one version of the options is older than the record. Missing: records created after
the options have been changed (see `C29_refuted`, and `C29_effective_partial` for what happens then). -/
theorem C29_documents_partial {P : Type} (X : Parser P) (record : MongoRecord) (hist : List (Int × Dict))
    (opts : List (Int × ParsingOptions)) (hi : record.iter = .ok (hist.map (fun vd => (some vd.1, vd.2))))
    (hh : ValidHist hist) (ho : ValidOptions opts) (hone : OptionsNotChangedBefore hist opts) :
    ∃ rvs, build X record opts = .ok rvs ∧ PartitionsTime X record.id hist opts (createDocs rvs) := by
  obtain ⟨rvs, h1, h2⟩ := C29_effective_partial X record hist opts hi hh ho
  rw [effectiveOptions_self hone] at h2
  exact ⟨rvs, h1, h2⟩

/-- A record created at 1, changed at 3, deleted at 5, made again at 7, and options of 1 and 4. -/
def exRecord29 : MongoRecord where
  id := ['a']
  version := some 7
  data := [(['x'], .int 9)]
  diffs := match diff (.dict [(['x'], .int 9)]) (.dict []), diff (.dict []) (.dict [(['x'], .int 2)]),
      diff (.dict [(['x'], .int 2)]) (.dict [(['x'], .int 1)]) with
    | .ok a, .ok b, .ok c => [(5, a), (3, b), (1, c)]
    | _, _, _ => []

set_option maxRecDepth 100000 in
example : ∃ rvs, build exParser exRecord29 [(1, exOpts 10), (4, exOpts 20)] = .ok rvs ∧
    PartitionsTime exParser ['a'] [(7, [(['x'], .int 9)]), (5, []), (3, [(['x'], .int 2)]), (1, [(['x'], .int 1)])]
      [(1, exOpts 10), (4, exOpts 20)] (createDocs rvs) ∧
    (createDocs rvs).map (fun d => (d.gte, d.lt)) = [(1, some 3), (3, some 4), (4, some 5), (7, none)] := by
  obtain ⟨rvs, h1, h2⟩ := C29_documents_partial exParser exRecord29
    [(7, [(['x'], .int 9)]), (5, []), (3, [(['x'], .int 2)]), (1, [(['x'], .int 1)])]
    [(1, exOpts 10), (4, exOpts 20)] (by rfl) ⟨by simp, by simp, by
      intro v d hm hle
      have := hle 1 [(['x'], .int 1)] (by simp)
      simp only [List.mem_cons, Prod.mk.injEq, List.not_mem_nil, or_false] at hm
      rcases hm with ⟨rfl, rfl⟩ | ⟨rfl, rfl⟩ | ⟨rfl, rfl⟩ | ⟨rfl, rfl⟩ <;> first | omega | simp⟩
    ⟨by simp, by simp⟩ (by
      intro w w' hw hw' h
      have := h 1 (by simp)
      simp at hw hw'; omega)
  refine ⟨rvs, h1, h2, ?_⟩
  have e : (match build exParser exRecord29 [(1, exOpts 10), (4, exOpts 20)] with
    | .ok rvs => (createDocs rvs).map (fun d => (d.gte, d.lt)) | .error _ => []) =
    [(1, some 3), (3, some 4), (4, some 5), (7, none)] := by rfl
  rw [h1] at e; exact e

end Splitgill.Props
