import Verif.Model.Concurrent
/-!
# Model of several processes in `ingest` on one data collection, each doing what its program says
-/

namespace Splitgill

/-- A process in `ingest(records, commit=False, modified_field)` (manager.py:283-331 with `generate_ops`, ingest.py:35-179, and
`partition`, utils.py:61-73). -/
structure IngestProc where
  modifiedField : Option PyStr
  /-- the chunks of records it has not looked up yet -/
  chunks : List (List Record)
  /-- operations `generate_ops` has made of a chunk and which it has not yielded yet -/
  ops : List MongoOp := []
  /-- the list `partition` is filling -/
  buf : List MongoOp := []
  /-- the rest of the list given to `bulk_write` -/
  writing : List MongoOp := []
  /-- the counts so far -/
  counts : Counts := {}
  /-- what it has raised -/
  raised : Option PyErr := none

/-- A process that begins an ingest (manager.py:318-325); the code has `size` 200. -/
def IngestProc.start (size : Nat) (mf : Option PyStr) (records : List Record) : IngestProc :=
  { modifiedField := mf, chunks := partition records size }

/-- It has returned. -/
def IngestProc.finished (p : IngestProc) : Bool :=
  p.chunks.isEmpty && p.ops.isEmpty && p.buf.isEmpty && p.writing.isEmpty && p.raised.isNone

/-- The next step of a process (ingest.py:80-179, manager.py:320-329): MongoDB applies the next operation of its `bulk_write`; or
`partition` takes an operation from the generator, and hands the list on when it is full; or the generator looks the next chunk up;
or, after the last chunk, the list is handed on as it is. (A `find` is one step. A chunk whose operations cannot be generated raises at
once.) -/
def IngestProc.step (U : Unicode) (size : Nat) (c : Coll) (p : IngestProc) : Coll × IngestProc :=
  match p.raised with
  | some _ => (c, p)
  | none =>
    match p.writing with
    | op :: rest =>
      (applyOp c op, { p with writing := rest, counts := p.counts.add (opCounts (c.find? (fun d => d.id = op.id)) op) })
    | [] =>
      match p.ops with
      | op :: rest =>
        if p.buf.length + 1 < size then (c, { p with ops := rest, buf := p.buf ++ [op] })
        else (c, { p with ops := rest, buf := [], writing := p.buf ++ [op] })
      | [] =>
        match p.chunks with
        | chunk :: rest =>
          match chunkOps U p.modifiedField c chunk with
          | .error e => (c, { p with raised := some e })
          | .ok ops => (c, { p with ops := ops, chunks := rest })
        | [] => (c, { p with writing := p.buf, buf := [] })

/-- The data collection and the processes. -/
structure ProcsState where
  coll : Coll
  procs : Nat → IngestProc

/-- What happens next: a step of a process, or somebody commits (manager.py:268-271; only the documents in `done` if the commit does
not get through). -/
inductive ProcsAct
  | step (p : Nat)
  | commit (v : Int) (done : PyStr → Bool)

/-- One action. -/
def ProcsState.act (U : Unicode) (size : Nat) (st : ProcsState) : ProcsAct → ProcsState
  | .step p =>
    let r := (st.procs p).step U size st.coll
    { coll := r.1, procs := fun q => if q = p then r.2 else st.procs q }
  | .commit v done => { st with coll := commitCollCrash v done st.coll }

/-- A schedule. -/
def ProcsState.run (U : Unicode) (size : Nat) (st : ProcsState) (acts : List ProcsAct) : ProcsState :=
  acts.foldl (ProcsState.act U size) st

end Splitgill
