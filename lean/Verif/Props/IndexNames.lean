import Verif.Proof.IndexNames
import Verif.Props.Life
/-!
# C116: which names a database can have

The documentation of `SplitgillDatabase` asks for a name that is valid for a collection of MongoDB and an index of Elasticsearch.
-/

namespace Splitgill.Props
open Splitgill

/-- C116 in full: for every name that is valid for a collection and an index, the object can be made, and Elasticsearch takes the names of
all indices of the database. -/
def C116_full : Prop :=
  ∀ (E : NameEnv) (db : PyStr), validIndexName E db = true → validCollectionName db = true →
    canOpen db = true ∧ ∀ ix, validIndexName E (indexName db ix) = true

/-- The characters of ASCII. -/
def exNames : NameEnv := ⟨fun c => !c.isUpper, fun _ _ => rfl⟩

/-- A valid name of 244 bytes. -/
def exLongName : PyStr := List.replicate 244 'a'

set_option maxRecDepth 100000 in
/-- **C116 does not hold in full**: of a valid name with 244 bytes, the name of the latest index is too long. -/
theorem C116_refuted : ¬ C116_full := by
  intro h
  have := (h exNames exLongName (by decide +kernel) (by decide +kernel)).2 .latest
  exact absurd this (by decide +kernel)

/-- **C116 (collections).** With a valid name of a collection the object can be made. -/
theorem C116_open (db : PyStr) (h : validCollectionName db = true) : canOpen db = true := canOpen_of_valid h

example : validCollectionName "my-records.2".toList = true ∧ canOpen "a$b".toList = false ∧ canOpen "a.".toList = false := by
  decide +kernel

/-- **C116 (exactly).** Elasticsearch takes the name of an index of a database exactly if the name of the database has allowed characters
only, and with what is added has at most 255 bytes. How it starts does not matter, as something is before it. -/
theorem C116_names (E : NameEnv) (db : PyStr) (ix : Ix) :
    validIndexName E (indexName db ix) = true ↔ NameChars E db ∧ utf8Len db + addedBytes ix ≤ 255 := valid_indexName

example : NameChars exNames "_x".toList ∧ ¬ NameChars exNames "aB".toList ∧ ¬ NameChars exNames "a b".toList ∧
    addedBytes .latest = 12 ∧ addedBytes (.arc 7) = 11 ∧ addedBytes (.arc 123) = 13 := by
  refine ⟨?_, ?_, ?_, rfl, by decide +kernel, by decide +kernel⟩ <;> · unfold NameChars; decide

/-- Names with up to 243 bytes fit, up to the archive 99. -/
theorem nameFits_of_valid {E : NameEnv} {db : PyStr} (h : validIndexName E db = true) (hl : utf8Len db ≤ 243) {ix : Ix}
    (hix : ∀ n, ix = .arc n → n < 100) : NameFits E db ix := by
  refine ⟨valid_nameChars h, ?_⟩
  cases ix with
  | latest => show _ + 12 ≤ 255; omega
  | arc n =>
    have := (Nat.length_toDigits_le_iff (b := 10) (n := n) (k := 2) (by omega) (by omega)).2 (hix n rfl)
    show _ + (10 + _) ≤ 255
    omega

/-- **C116 (partial).** A valid name of up to 243 bytes is fine for the latest index and 100 archives. Missing: longer names, see
`C116_refuted`, and more archives (each further digit takes a byte of the name, see `C116_names`). -/
theorem C116_partial (E : NameEnv) (db : PyStr) (h : validIndexName E db = true) (hc : validCollectionName db = true)
    (hl : utf8Len db ≤ 243) :
    canOpen db = true ∧ validIndexName E (indexName db .latest) = true ∧ ∀ n < 100, validIndexName E (indexName db (.arc n)) = true :=
  ⟨canOpen_of_valid hc, valid_indexName.2 (nameFits_of_valid h hl (by intro n h; cases h)),
    fun n hn => valid_indexName.2 (nameFits_of_valid h hl (by rintro k ⟨⟩; exact hn))⟩

set_option maxRecDepth 100000 in
/-- The bound is the best one. -/
example : validIndexName exNames (List.replicate 243 'a') = true ∧ validCollectionName (List.replicate 243 'a') = true ∧
    validIndexName exNames (indexName (List.replicate 243 'a') (.arc 100)) = false := by decide +kernel

/-- **C116 (patterns).** A valid name has no `*`, `?` or comma, with which Elasticsearch would take it for a pattern or a list of names; so
it is one that C46 is about. -/
theorem C116_no_patterns (E : NameEnv) (db : PyStr) (h : validIndexName E db = true) : '*' ∉ db ∧ '?' ∉ db ∧ ',' ∉ db :=
  ⟨fun hm => (valid_nameChars h _ hm).2 (by decide), fun hm => (valid_nameChars h _ hm).2 (by decide),
    fun hm => (valid_nameChars h _ hm).2 (by decide)⟩

example : validIndexName exNames "my-records".toList = true ∧ validIndexName exNames "_x".toList = false ∧
    validIndexName exNames "-x".toList = false ∧ validIndexName exNames "+x".toList = false := by decide +kernel

/-- **C116 (sync).** A sync, where it would succeed with any names, succeeds exactly if the names of all indices that are then there are
ones that Elasticsearch takes, and otherwise raises. -/
theorem C116_sync {P : Type} (E : NameEnv) (X : Parser P) (maxDocs : Nat) (db : PyStr) (resync : Bool) (m : Mongo) (es es' : ES P)
    (hv : ∀ ix ∈ akeys es, validIndexName E (indexName db ix) = true) (h : sync X maxDocs db resync m es = .ok es') :
    ((∀ ix ∈ akeys es', NameFits E db ix) → syncNamed E X maxDocs db resync m es = .ok es') ∧
    (¬ (∀ ix ∈ akeys es', NameFits E db ix) → syncNamed E X maxDocs db resync m es = .error .invalidIndexName) := by
  have key := syncNamed_iff (fun ix hix => valid_indexName.1 (hv ix hix)) h
  exact ⟨key.1.2, fun hf => key.2.resolve_left fun h1 => hf (key.1.1 h1)⟩

/-- **C116 (syncs, partial).** With a valid name of up to 243 bytes and at most 100 archives, syncs and resyncs do what they do with any
names. Missing: as in `C116_partial`. -/
theorem C116_sync_partial {P : Type} (E : NameEnv) (X : Parser P) (maxDocs : Nat) (db : PyStr) (m : Mongo) (es es' : ES P)
    (hn : validIndexName E db = true) (hl : utf8Len db ≤ 243) (ha : ∀ n ∈ es'.arcs, n < 100) :
    (∀ resync, sync X maxDocs db resync m es = .ok es' → syncNamed E X maxDocs db resync m es = .ok es') ∧
    (resyncArcs X maxDocs db m es = .ok es' → resyncArcsNamed E X maxDocs db m es = .ok es') := by
  have hf : ∀ ix ∈ akeys es', NameFits E db ix := by
    intro ix hix
    refine nameFits_of_valid hn hl ?_
    rintro n rfl
    refine ha n ?_
    simp only [akeys, ES.arcs, List.mem_map, List.mem_filterMap] at *
    obtain ⟨x, hx, e⟩ := hix
    exact ⟨x, hx, by rw [e]⟩
  exact ⟨fun resync h => syncNamed_fits h hf, fun h => resyncArcsNamed_fits h hf⟩

/-- **C116 (first syncs of the API, partial).** After any orderly calls on a database with a valid name of up to 243 bytes, a sync into
empty indices succeeds and indexes every record, if there are at most 100 archives. Missing: as in `C116_partial`. -/
theorem C116_first_sync_partial {P : Type} (E : NameEnv) (X : Parser P) (maxDocs : Nat) (U : Unicode) (db : PyStr) (calls : List ApiCall)
    (hn : validIndexName E db = true) (hl : utf8Len db ≤ 243) (h : Orderly calls) (v : Int) (hv : IsVersion (afterCalls U db calls) db v) :
    ∃ es, sync X maxDocs db false (afterCalls U db calls) [] = .ok es ∧
      ((∀ n ∈ es.arcs, n < 100) → syncNamed E X maxDocs db false (afterCalls U db calls) [] = .ok es ∧
        IndexesRecords X db (afterCalls U db calls)
          (((afterCalls U db calls).data db).filter (fun r => r.version.isSome)) es) := by
  obtain ⟨es, h1, -, h2⟩ := C30_api X maxDocs U db calls h v hv
  exact ⟨es, h1, fun ha => ⟨(C116_sync_partial E X maxDocs db _ [] es hn hl ha).1 false h1, h2⟩⟩

set_option maxRecDepth 100000 in
/-- A name with which it works, with two archives; with a capital letter data can be ingested and committed, but the sync raises; as it does
with a valid name that is too long. -/
example :
    validIndexName exNames ['x'] = true ∧
    (match syncNamed exNames exParser 2 ['x'] false (exDbOf exCalls2) [] with
      | .ok es => (es.arcs, es.all.length)
      | .error _ => ([], 0)) = ([0, 1], 4) ∧
    canOpen ['X'] = true ∧ ((afterCalls asciiU ['X'] exCalls2).data ['X']).length = 2 ∧
    (match syncNamed exNames exParser 2 ['X'] false (afterCalls asciiU ['X'] exCalls2) [] with
      | .error .invalidIndexName => true
      | _ => false) = true ∧
    (match syncNamed exNames exParser 2 exLongName false (afterCalls asciiU exLongName exCalls2) [] with
      | .error .invalidIndexName => true
      | _ => false) = true := by decide +kernel

end Splitgill.Props
