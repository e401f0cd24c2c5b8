import Verif.Spec.OptProcs
/-!
# Specification: calls about options end
-/

namespace Splitgill

/-- The living process is between taking and giving back the lock of the database. -/
def OptSys.Inside (s : OptSys) (p : Nat) (db : PyStr) : Prop :=
  ∃ x, s.procs p = some x ∧ x.alive = true ∧ x.db = db ∧ ∃ c, x.pc = .commit c ∧ c.inside = true

/-- Locks are released by hand only when no living process has them. -/
def CarefulOpt : OptSys → List OptAct → Prop
  | _, [] => True
  | s, a :: acts =>
    (match a with
      | .adminRelease id => ∀ p, ¬ s.Inside p id
      | _ => True) ∧ CarefulOpt (s.act a) acts

/-- The number of documents that the running `update_many` or `delete_many` has still to change. -/
def docsLeft (m : Mongo) (x : OptProc) : Nat :=
  match x.pc with
  | .commit (.data _) => (m.data x.db).countP (fun d => d.version.isNone)
  | .commit (.options _) => m.options.countP (fun d => d.version.isNone)
  | .delete => m.options.countP (fun d => d.version.isNone)
  | .rollback _ => m.options.countP (fun d => d.version.isNone)
  | _ => 0

/-- Each turn takes a document that is there, if any is left. -/
def TakesDocs (p : Nat) : OptSys → List (Int × Nat) → Prop
  | _, [] => True
  | s, t :: turns => (∀ x, s.procs p = some x → docsLeft s.mongo x ≠ 0 → t.2 < docsLeft s.mongo x) ∧ TakesDocs p (s.act (.step p t.1 t.2)) turns

/-- Only this process works, with the given times and documents. -/
def OptSys.alone (s : OptSys) (p : Nat) (turns : List (Int × Nat)) : OptSys := s.run (turns.map (fun t => .step p t.1 t.2))

end Splitgill
