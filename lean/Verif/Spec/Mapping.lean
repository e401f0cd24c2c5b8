import Verif.Model.Mapping
import Verif.Spec.Json
import Verif.Spec.Parse
/-!
# Specification of the types of fields in the indices
-/

namespace Splitgill

/-- The type of the fields with the name of a parsed type. -/
def PType.esType : PType → EsType
  | .unparsed => .disabled
  | .number => .double
  | .date => .date
  | .boolean => .boolean
  | .text => .text
  | .keyword => .keyword true
  | .geoPoint => .geoPoint
  | .geoShape => .geoShape

/-- The parsed type with a name. -/
def typeNamed (k : PyStr) : Option PType :=
  [PType.unparsed, .number, .date, .boolean, .text, .keyword, .geoPoint, .geoShape].find? (fun t => decide (t.name = k))

/-- The type that a field has, by its path alone: fields of data are objects, unless their last name is that of a parsed type. -/
def fieldType (path : PyStr) : Option EsType :=
  match splitDots path with
  | [] => none
  | [k] => if k = "data".toList then some .object else aget k initialMapping
  | k :: ks =>
    if k = "data".toList then
      some (match ks with
        | [_] => .object
        | ks => (((ks.getLast?).bind typeNamed).map PType.esType).getD .object)
    else none

/-- Every field has the type that its path tells, and the fields of the template are there. -/
structure RegularMapping (m : Mapping) : Prop where
  types : ∀ path t, aget path m = some t → fieldType path = some t
  initial : ∀ path t, aget path initialMapping = some t → aget path m = some t

/-- The places that libraries find can be written in the fields for places. -/
structure PlacesOk (E : ParseEnv) (S : EsEnv) : Prop where
  wkt : ∀ s g, E.wkt s = some g → S.point g.1 = true ∧ S.shape g.2 = true
  geojson : ∀ d g, E.geojson d = some g → S.point g.1 = true ∧ S.shape g.2 = true
  hint : ∀ lon lat r n g, E.hintGeo lon lat r n = some g → S.point g.1 = true ∧ S.shape g.2 = true

/-- Making a text lower case gives no more characters. -/
def EsEnv.NotLonger (S : EsEnv) : Prop := ∀ s, (S.lower s).length ≤ s.length

/-- The options cut keywords to at most 8191 characters (the default). -/
def ShortKeywords (o : ParsingOptions) : Prop := 0 ≤ o.keywordLength ∧ o.keywordLength ≤ 8191

/-- The id and the texts of the types of a document are not too long for keywords. -/
structure ShortTexts (doc : Doc ParsedData) : Prop where
  id : utf8Len doc.id ≤ 32766
  dataTypes : ∀ s ∈ doc.parsed.dataTypes, utf8Len s ≤ 32766
  parsedTypes : ∀ s ∈ doc.parsed.parsedTypes, utf8Len s ≤ 32766

/-- The document holds the parse of some data with names as ingest makes them, under some options. -/
def MadeFrom (E : ParseEnv) (opts : ParsingOptions → Prop) (p : ParsedData) : Prop :=
  ∃ data o, (Value.dict data).wf = true ∧ FieldNames (.dict data) ∧ opts o ∧ (realParser E).parse data o = some p

/-- The document with what was parsed; `none` if parsing raised an exception: then the document is not written. -/
def Doc.written (d : Doc (Option ParsedData)) : Option (Doc ParsedData) :=
  d.parsed.map (fun p => { id := d.id, version := d.version, gte := d.gte, lt := d.lt, next := d.next, parsed := p })

/-- The documents that operations write to an index. -/
def writtenTo (ix : Ix) (ops : List (BulkOp (Option ParsedData))) : List (Doc ParsedData) :=
  ops.filterMap (fun op => match op with
    | .index ix' _ d => if ix' = ix then d.written else none
    | .delete _ _ => none)

end Splitgill
