import Verif.Spec.Parse
import Verif.Spec.Search
import Verif.Model.Fields
/-!
# Specification: the listing of fields
-/

namespace Splitgill

open Classical in
/-- The number of elements for which this holds. -/
noncomputable def howMany {α : Type} (l : List α) (P : α → Prop) : Nat := (l.filter (fun a => decide (P a))).length

/-- The fields are listed as they occur in the documents: one field for each path at which something occurs in any of
them, with the number of documents for which this is so, and for each type the number of documents in which this type occurs
at the path; frequent fields come first, and those with the same count in the order of their paths. -/
structure ListsFields {T δ : Type} [DecidableEq T] (name : T → PyStr) (docs : List δ)
    (occurs : δ → List PyStr → PyStr → Prop) (fs : List (FieldCounts T)) : Prop where
  once : (fs.map FieldCounts.path).Nodup
  paths : ∀ s, s ∈ fs.map FieldCounts.path ↔ ∃ d ∈ docs, ∃ p t, occurs d p t ∧ pathText p = s
  count : ∀ f ∈ fs, f.count = howMany docs (fun d => ∃ p t, occurs d p t ∧ pathText p = f.path)
  types : ∀ f ∈ fs, ∀ t, f.countOf t = howMany docs (fun d => ∃ p, occurs d p (name t) ∧ pathText p = f.path)
  order : fs.Pairwise (fun a b => b.count < a.count ∨ (a.count = b.count ∧ a.path < b.path))

/-- The fields are linked by their paths: the parent of a field is at the path without the last name, and there is one
unless the path is a single name. -/
structure LinksFields (fs : List DataField) : Prop where
  parent : ∀ f ∈ fs, ∀ q, f.parent = some q ↔ ∃ name, '.' ∉ name ∧ f.path = q ++ '.' :: name
  listed : ∀ f ∈ fs, ∀ q, f.parent = some q → ∃ g ∈ fs, g.path = q
  children : ∀ f ∈ fs, ∀ c, c ∈ f.children ↔ ∃ g ∈ fs, g.path = c ∧ g.parent = some f.path
  childrenOnce : ∀ f ∈ fs, f.children.Nodup

end Splitgill
