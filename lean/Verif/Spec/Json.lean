import Verif.Model.Json
import Verif.Spec.Names
/-!
# Specification of the texts that are sent to Elasticsearch: a reader of JSON and of bulk requests

The reader is for JSON without spaces between the tokens. It does not reject all wrong JSON (numbers with leading zeros, say).
-/

namespace Splitgill

/-- A character of a number. -/
def isNumChar (c : Char) : Bool := c.isDigit || decide (c = '-' ∨ c = '+' ∨ c = '.' ∨ c = 'e' ∨ c = 'E')

/-- A number: an int if it has only digits, after a minus sign or not. -/
def readNumber (F : FloatText) (s : PyStr) : Option Value :=
  match s with
  | '-' :: ds => if ds ≠ [] ∧ ds.all Char.isDigit then some (.int (-(Nat.ofDigitChars 10 ds 0 : Int))) else (F.read s).map .float
  | ds => if ds ≠ [] ∧ ds.all Char.isDigit then some (.int (Nat.ofDigitChars 10 ds 0)) else (F.read s).map .float

mutual
/-- The value at the start of a text, and the rest of the text. The number bounds the depth of the recursion. -/
def readValue (F : FloatText) : Nat → PyStr → Option (Value × PyStr)
  | 0, _ => none
  | n + 1, s =>
    match s with
    | '"' :: s => (jsonString s).map (fun x => (.str x.1, x.2))
    | '[' :: ']' :: s => some (.list [], s)
    | '[' :: s =>
      match readValue F n s with
      | none => none
      | some (v, s) => (readMore F n s).map (fun x => (.list (v :: x.1), x.2))
    | '{' :: '}' :: s => some (.dict [], s)
    | '{' :: '"' :: s =>
      match jsonString s with
      | some (k, ':' :: s) =>
        match readValue F n s with
        | none => none
        | some (v, s) => (readItems F n s).map (fun x => (.dict ((k, v) :: x.1), x.2))
      | _ => none
    | 'n' :: s => (expect "ull".toList s).map (fun s => (.none, s))
    | 't' :: s => (expect "rue".toList s).map (fun s => (.bool true, s))
    | 'f' :: s => (expect "alse".toList s).map (fun s => (.bool false, s))
    | s => (readNumber F (s.takeWhile isNumChar)).map (fun v => (v, s.dropWhile isNumChar))
/-- The rest of a list. -/
def readMore (F : FloatText) : Nat → PyStr → Option (List Value × PyStr)
  | 0, _ => none
  | n + 1, s =>
    match s with
    | ']' :: s => some ([], s)
    | ',' :: s =>
      match readValue F n s with
      | none => none
      | some (v, s) => (readMore F n s).map (fun x => (v :: x.1, x.2))
    | _ => none
/-- The rest of an object. -/
def readItems (F : FloatText) : Nat → PyStr → Option (Dict × PyStr)
  | 0, _ => none
  | n + 1, s =>
    match s with
    | '}' :: s => some ([], s)
    | ',' :: '"' :: s =>
      match jsonString s with
      | some (k, ':' :: s) =>
        match readValue F n s with
        | none => none
        | some (v, s) => (readItems F n s).map (fun x => ((k, v) :: x.1, x.2))
      | _ => none
    | _ => none
end

/-- The value of a text. -/
def loads (F : FloatText) (s : PyStr) : Option Value :=
  match readValue F (s.length + 1) s with
  | some (v, []) => some v
  | _ => none

/-- An operation of a bulk request. -/
inductive WireOp
  | index (index : PyStr) (docId : Option PyStr) (doc : Dict)
  | delete (index docId : PyStr)

/-- The index and the id in the first line of an operation. -/
def readAction (d : Dict) : Option (PyStr × Option PyStr) :=
  match aget "_index".toList d, aget "_id".toList d with
  | some (.str i), some (.str id) => some (i, some id)
  | some (.str i), some .none => some (i, none)
  | _, _ => none

/-- The operations of a bulk request, given by its lines: a line for each delete, two lines for each index operation, and a
newline at the end. -/
def readBulk (F : FloatText) : List PyStr → Option (List WireOp)
  | [] => none
  | [l] => if l.isEmpty then some [] else none
  | l :: l' :: ls =>
    match loads F l with
    | some (.dict [(a, .dict d)]) =>
      if a = "delete".toList then
        match readAction d with
        | some (i, some id) => (readBulk F (l' :: ls)).map (WireOp.delete i id :: ·)
        | _ => none
      else if a = "index".toList then
        match readAction d, loads F l' with
        | some (i, id), some (.dict doc) => (readBulk F ls).map (WireOp.index i id doc :: ·)
        | _, _ => none
      else none
    | _ => none

mutual
/-- What JSON keeps of a value: NaN and the infinities become `None`. -/
def Value.sent : Value → Value
  | .float .nan => .none
  | .float .pinf => .none
  | .float .ninf => .none
  | .list l => .list (sentList l)
  | .dict d => .dict (sentDict d)
  | v => v
def sentList : List Value → List Value
  | [] => []
  | v :: r => v.sent :: sentList r
def sentDict : Dict → Dict
  | [] => []
  | (k, v) :: r => (k, v.sent) :: sentDict r
end

/-- The operation that a bulk request should have. -/
def BulkOp.wire (db : PyStr) : BulkOp ParsedData → WireOp
  | .index ix docId doc => .index (indexName db ix) docId (sentDict doc.toDict)
  | .delete ix docId => .delete (indexName db ix) docId

/-- A version is in a range as Elasticsearch reads it (a value of a field of type `date_range` in milliseconds): it keeps to all bounds. -/
def InRange (range : Dict) (v : Int) : Prop :=
  ∀ k b, (k, b) ∈ range → ∃ i : Int, b = .int i ∧
    ((k = "gte".toList ∧ i ≤ v) ∨ (k = "gt".toList ∧ i < v) ∨ (k = "lte".toList ∧ v ≤ i) ∨ (k = "lt".toList ∧ v < i))

/-- A float is read as it was written, and written as a JSON number with a point or an exponent. -/
structure FloatText.Keeps (F : FloatText) (f : PyFloat) : Prop where
  read : F.read (F.write f) = some f
  chars : ∀ c ∈ F.write f, isNumChar c = true
  first : ∃ c s, F.write f = c :: s ∧ (c.isDigit = true ∨ c = '-')
  float : ∃ c ∈ F.write f, c = '.' ∨ c = 'e' ∨ c = 'E'

/-- A delete operation without quotes, backslashes or control characters in its id. -/
def BulkOp.PlainDelete : BulkOp ParsedData → Prop
  | .index _ _ _ => True
  | .delete _ docId => PlainStr docId

mutual
/-- All values inside that are not lists or dicts. -/
def AllLeaves (p : Value → Prop) : Value → Prop
  | .list l => AllLeavesList p l
  | .dict d => AllLeavesDict p d
  | v => p v
def AllLeavesList (p : Value → Prop) : List Value → Prop
  | [] => True
  | v :: r => AllLeaves p v ∧ AllLeavesList p r
def AllLeavesDict (p : Value → Prop) : Dict → Prop
  | [] => True
  | (_, v) :: r => AllLeaves p v ∧ AllLeavesDict p r
end

/-- An int that `orjson` can write. -/
def IntFits (v : Value) : Prop := ∀ i, v = .int i → -2 ^ 63 ≤ i ∧ i < 2 ^ 64
/-- A float that is kept. -/
def FloatFits (F : FloatText) (v : Value) : Prop := ∀ f, v = .float f → f = .nan ∨ f = .pinf ∨ f = .ninf ∨ F.Keeps f

/-- The document of an index operation can be written: its ints fit into 64 bits, and finite floats are kept. -/
def BulkOp.Writable (F : FloatText) : BulkOp ParsedData → Prop
  | .index _ _ doc => AllLeavesDict (fun v => IntFits v ∧ FloatFits F v) doc.toDict
  | .delete _ _ => True

/-- Not a NaN and not an infinity. -/
def Finite : Value → Prop
  | .float f => f = .negZero ∨ ∃ q, f = .fin q
  | _ => True

/-- The values that `parse` makes itself. -/
structure LeavesOk (E : ParseEnv) (p : Value → Prop) : Prop where
  none : p .none
  bool : ∀ b, p (.bool b)
  str : ∀ s, p (.str s)
  date : ∀ s f i, E.parseDate s f = some i → p (.int i)
  number : ∀ s f, E.toNumber s = some f → p (.float f)

end Splitgill
