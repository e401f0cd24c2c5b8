import Verif.Model.RealParser
import Verif.Model.Geo
/-!
# Exceptions of `parse`, through `sync` (`splitgill/indexing/parser.py`, `splitgill/indexing/index.py`, `splitgill/manager.py`)

`Verif.Model.Index` has any parser and `realParser` has a value for exceptions of `parse`. Here an exception of `parse` ends the sync, as in
the code. `parse` raises for data that `Verif.Model.Parse` has an error for, and where a library raises (`Failures`).
-/

namespace Splitgill

/-- Where libraries raise exceptions that `parse` does not catch. -/
structure Failures where
  /-- `float_format.format(value)` (parser.py:158-159). Nothing checks the format (options.py:177-188). -/
  format : PyStr → PyFloat → Bool
  /-- `match_geojson` (geo.py:118-151) of a dict with the keys `type` and `coordinates` -/
  geojson : Dict → Bool
  /-- A round of the loop of `match_hints` (geo.py:47-76): the values of longitude, latitude and radius, and the segments -/
  hint : Value → Value → Option Value → Int → Bool

/-- `match_hints(data, hints)` (geo.py:36-78) raises -/
def hintsFail (F : Failures) (o : ParsingOptions) (d : Dict) : Bool :=
  o.geoHints.any (fun h => F.hint (getOrEmpty h.lonField d) (getOrEmpty h.latField d)
    ((optTruthy h.radiusField).map (fun r => getOrEmpty r d)) h.segments)

mutual
/-- A library raises somewhere in a value that is not the root (parser.py:79-100, 119-136): `parse_dict` and `parse_list` go through all of
it, but for empty dicts and lists. -/
def failsIn (F : Failures) (o : ParsingOptions) : Value → Bool
  | .float f => F.format o.floatFormat f
  | .list l => failsList F o l
  | .dict d => !d.isEmpty && ((ahas "type".toList d && ahas "coordinates".toList d && F.geojson d) || hintsFail F o d || failsItems F o d)
  | _ => false
def failsItems (F : Failures) (o : ParsingOptions) : Dict → Bool
  | [] => false
  | (_, v) :: r => failsIn F o v || failsItems F o r
def failsList (F : Failures) (o : ParsingOptions) : List Value → Bool
  | [] => false
  | v :: r => failsIn F o v || failsList F o r
end

/-- `parse(data, options)` (parser.py:23-53). Simplified: all exceptions of libraries are `ValueError`. -/
def tryParse (E : ParseEnv) (F : Failures) (o : ParsingOptions) (d : Dict) : Except PyErr ParsedData :=
  if hintsFail F o d || failsItems F o d then .error .valueError else parse E o d

/-- One round of the loop of `RecordVersions.build` (indexing/index.py:226-246). The keys of the parsed dicts are in order (see `canon`). -/
def tryBuildStep (E : ParseEnv) (F : Failures) (id : PyStr) (allData : List (Int × Dict)) (allOptions : List (Int × ParsingOptions))
    (first : Int) (st : BuildState (Option ParsedData)) (version : Int) : Except PyErr (BuildState (Option ParsedData)) :=
  if version < first then .ok st
  else
    let data := (aget version allData).getD st.data
    let options := (aget version allOptions).getD st.options
    if data.isEmpty then
      match st.rvs with
      | [] => .error .attributeError
      | last :: rest =>
        .ok ⟨data, options, (if last.deletedAt.isNone then { last with deletedAt := some version } else last) :: rest⟩
    else
      match tryParse E F options data with
      | .error e => .error e
      | .ok p =>
        let doc : RecordVersion (Option ParsedData) := ⟨id, version, some { p with parsed := canonDict p.parsed }, none⟩
        match st.rvs with
        | [] => .ok ⟨data, options, [doc]⟩
        | last :: rest =>
          .ok ⟨data, options, if doc.eq (realParser E) (aget version allData).isNone last then last :: rest else doc :: last :: rest⟩

/-- The loop (indexing/index.py:224-246). -/
def tryBuildLoop (E : ParseEnv) (F : Failures) (id : PyStr) (allData : List (Int × Dict)) (allOptions : List (Int × ParsingOptions))
    (first : Int) : BuildState (Option ParsedData) → List Int → Except PyErr (BuildState (Option ParsedData))
  | st, [] => .ok st
  | st, v :: vs =>
    match tryBuildStep E F id allData allOptions first st v with
    | .error e => .error e
    | .ok st => tryBuildLoop E F id allData allOptions first st vs

/-- `RecordVersions.build` after `all_data = dict(record.iter())` (indexing/index.py:216-248). -/
def tryBuildFrom (E : ParseEnv) (F : Failures) (id : PyStr) (allData : List (Int × Dict)) (allOptions : List (Int × ParsingOptions)) :
    Except PyErr (List (RecordVersion (Option ParsedData))) :=
  match (akeys allData).min?, (akeys allOptions).min? with
  | some first, some firstOptions =>
    match aget first allData, aget firstOptions allOptions with
    | some data, some options =>
      match tryBuildLoop E F id allData allOptions first ⟨data, options, []⟩ (sortedSet (akeys allOptions ++ akeys allData)) with
      | .error e => .error e
      | .ok st => .ok st.rvs.reverse
    | _, _ => .error .keyError
  | _, _ => .error .valueError

/-- `RecordVersions.build(record, all_options)` (indexing/index.py:205-248) -/
def tryBuild (E : ParseEnv) (F : Failures) (record : MongoRecord) (allOptions : List (Int × ParsingOptions)) :
    Except PyErr (List (RecordVersion (Option ParsedData))) :=
  match record.iter with
  | .error e => .error e
  | .ok items =>
    match intVersions items with
    | .error e => .error e
    | .ok allData => tryBuildFrom E F record.id (aofList allData) allOptions

/-- `generate_index_ops` (indexing/index.py:260-321). Simplified as `generateOps` is. -/
def tryGenerateOps (E : ParseEnv) (F : Failures) (maxDocs : Nat) (allOptions : List (Int × ParsingOptions)) (after : Option Int) :
    Nat × Nat → List MongoRecord → Except PyErr (List (BulkOp (Option ParsedData)) × (Nat × Nat))
  | arc, [] => .ok ([], arc)
  | arc, record :: rest =>
    match tryBuild E F record allOptions with
    | .error e => .error e
    | .ok [] => .error .typeError
    | .ok rvs =>
      match rvOps maxDocs after record.id arc rvs with
      | (ops, arc) =>
        match tryGenerateOps E F maxDocs allOptions after arc rest with
        | .error e => .error e
        | .ok (ops', arc) => .ok (ops ++ ops', arc)

/-- `sync(resync)` (manager.py:441-515). Simplified: what is written before an exception is not modelled here (see `tryStream` and C97). -/
def trySync (E : ParseEnv) (F : Failures) (maxDocs : Nat) (db : PyStr) (resync : Bool) (m : Mongo) (es : ES (Option ParsedData)) :
    Except PyErr (ES (Option ParsedData)) :=
  if !hasData db m then .ok es
  else
    match syncScope db resync m es with
    | .error e => .error e
    | .ok none => .ok es
    | .ok (some (sel, lastSync)) =>
      let es := if resync then es.deleteArcs else es
      match tryGenerateOps E F maxDocs (committedOptionsOf db m) lastSync es.arcStatus ((m.data db).filter sel) with
      | .error e => .error e
      | .ok (ops, _) => .ok (es.applyOps ops)

/-- `resync_arcs()` (manager.py:517-558). Simplified as `trySync` is. -/
def tryResyncArcs (E : ParseEnv) (F : Failures) (maxDocs : Nat) (db : PyStr) (m : Mongo) (es : ES (Option ParsedData)) :
    Except PyErr (ES (Option ParsedData)) :=
  let es := es.deleteArcs
  match tryGenerateOps E F maxDocs (committedOptionsOf db m) none es.arcStatus
      ((m.data db).filter (fun r => r.version.isSome)) with
  | .error e => .error e
  | .ok (ops, _) => .ok (es.applyOps (ops.filter (fun op => decide (op.ix ≠ .latest))))

/-- `match_geojson` raises a `ValueError` for polygons with more than two dimensions (geo.py:148, 227; C53): the failures with these
shapes of `shapely`, and these of formats and hints. -/
def Failures.withGeo (F : Failures) (G : GeoLib) : Failures :=
  { F with geojson := fun d => match geojsonParsed G d with
    | .error _ => true
    | .ok _ => false }

end Splitgill
