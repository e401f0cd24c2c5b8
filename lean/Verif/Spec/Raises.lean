import Verif.Model.Raises
import Verif.Spec.Index
import Verif.Spec.Parse
/-!
# Specification of when a sync raises
-/

namespace Splitgill

/-- The order of keys in dicts does not matter for where libraries raise. -/
structure Failures.IgnoresOrder (F : Failures) : Prop where
  geojson : ∀ a b, (Value.dict a).wf = true → (Value.dict b).wf = true → strictEq (.dict a) (.dict b) = true →
    F.geojson a = F.geojson b
  hint : ∀ lon lat r n lon' lat' r', lon.wf = true → lon'.wf = true → strictEq lon lon' = true →
    lat.wf = true → lat'.wf = true → strictEq lat lat' = true →
    ((r = none ∧ r' = none) ∨ ∃ x x', r = some x ∧ r' = some x' ∧ x.wf = true ∧ x'.wf = true ∧ strictEq x x' = true) →
    F.hint lon lat r n = F.hint lon' lat' r' n

/-- No library raises. -/
structure Failures.Never (F : Failures) : Prop where
  format : ∀ f x, F.format f x = false
  geojson : ∀ d, F.geojson d = false
  hint : ∀ lon lat r n, F.hint lon lat r n = false

/-- `parse` returns for the data of a record with this history at every version, with the options that are used for it at that version. -/
def Parses (E : ParseEnv) (F : Failures) (hist : List (Int × Dict)) (opts : List (Int × ParsingOptions)) : Prop :=
  ∀ v a o, AsOf hist v a → a ≠ [] → OptionsAsOf (effectiveOptions hist opts) v o → ∃ p, tryParse E F o a = .ok p

/-- The records that a sync looks at: those without uncommitted changes if everything is synced or the options have a new version, and else
those of them with a new version. -/
def LooksAt {P : Type} (db : PyStr) (resync : Bool) (m : Mongo) (es : ES P) (r : MongoRecord) : Prop :=
  r ∈ m.data db ∧ ∃ w, r.version = some w ∧
    (resync = true ∨ es.version = none ∨ ∃ t, es.version = some t ∧ (t < w ∨ ∃ u ∈ akeys (committedOptionsOf db m), t < u))

/-- `sync()` at several times; the first exception ends it. -/
def tryRunSyncs (E : ParseEnv) (F : Failures) (maxDocs : Nat) (db : PyStr) :
    ES (Option ParsedData) → List Mongo → Except PyErr (ES (Option ParsedData))
  | es, [] => .ok es
  | es, m :: ms =>
    match trySync E F maxDocs db false m es with
    | .error e => .error e
    | .ok es => tryRunSyncs E F maxDocs db es ms

end Splitgill
