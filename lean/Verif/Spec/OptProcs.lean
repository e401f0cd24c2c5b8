import Verif.Model.OptProcs
import Verif.Spec.World
/-!
# Specification: options that are given by several processes
-/

namespace Splitgill

/-- The newest committed options of the database, in what `get_options()` returns, are equal (in Python's sense) to `o`. -/
def NewestOptions (db : PyStr) (m : Mongo) (o : ParsingOptions) : Prop :=
  ∃ v l, (some v, l) ∈ getOptions db false m ∧ (∀ w l', (some w, l') ∈ getOptions db false m → w ≤ v) ∧ l.pyEq o = true

/-- No call is being made: all processes have ended or are dead. -/
def OptSys.Quiet (s : OptSys) : Prop := ∀ q x, s.procs q = some x → x.alive = false ∨ x.pc.ended = true

/-- No options are uncommitted, of no database. -/
def OptSys.Clean (s : OptSys) : Prop := ∀ d ∈ s.mongo.options, d.version ≠ none

/-- Somebody has committed options. -/
def OptSys.HasOptions (s : OptSys) : Prop := ∃ d ∈ s.mongo.options, d.version ≠ none

/-- The clock shows later times than those of the committed options. -/
def ClocksLater (s : OptSys) (acts : List OptAct) : Prop :=
  ∀ p t pick, OptAct.step p t pick ∈ acts → ∀ d ∈ s.mongo.options, ∀ w, d.version = some w → w < t

/-- The processes that start are commits. -/
def OnlyCommits (acts : List OptAct) : Prop := ∀ p db call, OptAct.start p db call ∈ acts → call = .commit

/-- The process has returned from its call. -/
def OptSys.Returned (s : OptSys) (p : Nat) (r : Option Int) : Prop := ∃ x, s.procs p = some x ∧ x.pc.result = some r

end Splitgill
