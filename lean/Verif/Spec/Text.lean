import Verif.Spec.Filter
/-!
# Specification: full text
-/

namespace Splitgill

/-- A text of the data: of a scalar in the field, or anywhere if no field is given; `None` and `""` are not looked at. -/
def IsTextOf (E : ParseEnv) (o : ParsingOptions) (d : Dict) (field : Option PyStr) (s : PyStr) : Prop :=
  ∃ p v, (∀ f, field = some f → fieldPath p = f) ∧ getAt p (.dict d) = some v ∧ v.isIndexed = true ∧ s = textOf E o v

/-- The query has words, and one of them, or every one, is a word of one of the texts. -/
def MatchesText (words : PyStr → List PyStr) (every : Bool) (query : PyStr) (texts : PyStr → Prop) : Prop :=
  words query ≠ [] ∧
  match every with
  | true => ∀ w ∈ words query, ∃ s, texts s ∧ w ∈ words s
  | false => ∃ w ∈ words query, ∃ s, texts s ∧ w ∈ words s

end Splitgill
