# Formal model of NaturalHistoryMuseum/splitgill in Lean 4

This file says, for each property of `properties.jsonl`, what is modelled and how it is
proved, and states the trusted base.  `MANIFEST.json` maps properties to theorem names.

## Trusted base

* Lean 4.33.0's kernel.  Only the standard axioms `propext`, `Classical.choice` and
  `Quot.sound` are used; no axiom is declared, there is no `sorry`/`admit`, no
  `native_decide`, no `bv_decide`.  `tools/audit.sh` prints the axioms of every property theorem.
* The reading of the Python source: the model is written by hand, function by function, each
  definition citing the file and lines it models.  Nothing was executed.
* The assumptions about things outside the repository listed below.

### Representation of Python values

`Verif/Py/Value.lean`: `None`, `bool`, `int` (unbounded), `float` (NaN, infinities, negative zero, or a
rational), `str` (list of unicode scalar values: lone surrogates are not representable), `list`,
`dict` with `str` keys (association list in insertion order, without repeated keys).
`==` is `pyEq` (numbers compared across `bool`/`int`/`float`, NaN unequal to itself, dicts compared
without order).  CPython's identity shortcut in container comparison (`x is y` implies equal, only
visible for NaN) is modelled where the same object can be met twice: the parses of one data object under
two options (`Parser.eqSame`, `RecordVersion.eq`). Elsewhere two NaNs are different objects, which is the
case for data prepared from separate inputs or read back from MongoDB.

### External systems (assumed, not verified)

* MongoDB: a collection is a list of documents in insertion order; `bulk_write` applies the ops in order;
  `find` returns the documents matching a filter as of the moment it is called (cursor batches of
  a concurrently changed collection are not modelled except where a property says so);
  `$set`/`$unset` of `data`, `version`, `diffs`, `diffs.<v>` as documented; the unique index on
  `lock_id` rejects duplicates.  That BSON keeps what is stored is C127 (for ints beyond 64 bits see C99).
* Elasticsearch: an index maps document ids to documents; `_bulk` applies its items in order; a refresh of an index makes
  its documents visible at once, and an index is refreshed only on request or when its `refresh_interval` is not -1 (`Model/Visible`; elsewhere a write is seen when it
  is done); a request with `index=[]` is about all indices; `date_range`/`term`/`range`/`composite` queries as documented; index
  wildcard expansion matches `*` with any string.
* `datetime.strptime` is modelled for ASCII texts and the directives of the default formats (`Model/DateText`) and is a parameter otherwise. That it raises
  `re.error` if a directive comes twice is modelled in `dateLoop` only (C108); the other properties assume that no format of the options does this.
* `fastnumbers.try_float` is modelled for texts of printable ASCII characters that write no number or one within the normal doubles (`Model/NumberText`,
  assumed as `ParseEnv.ReadsNumbers` in C110) and is a parameter otherwise.
* `str.format` is modelled for floats with the formats `{0:.Pg}`, of which `{0:.15g}` is the default (`Model/FloatText`, assumed as `ParseEnv.FormatsG` in C111)
  and is a parameter otherwise.
* `Point(longitude, latitude)` of shapely and `try_float` for radii are modelled for scalars (`Model/Coordinates`, assumed as `GeoLib.Reads` in C112) and are
  parameters otherwise.
* `str.lower`, other shapely/pyproj/orjson geometry
  functions and unicode tables: parameters ("oracles") of the model. Theorems hold for all of them, or under an explicitly
  stated assumption.
* JSON: `orjson.dumps` is modelled (`Model/Json`; how finite floats are written is a parameter, and for C113 the shortest digits of `Model/JsonFloat`, which are assumed to be those of `orjson`, read by Elasticsearch to the nearest double; limits of exponents are not modelled) and connected with the other
  properties by C94 and C95; elsewhere a document in Elasticsearch has the values that `parse` made.
* asyncio: cooperative scheduling; between two awaits code is atomic.

### What is modelled, by file of `/repo/splitgill`

| file | modelled | model modules |
|------|----------|---------------|
| `diffing.py` | all: `prepare_data`, `prepare_field_name`, `diff` with its queue and both comparisons, `patch` (also as a program on a heap with sharing) | `Model/Prepare`, `Model/DateText`, `Model/Diff`, `Model/PatchHeap` |
| `model.py` | all: `Record`, `MongoRecord`, hints, `ParsingOptions`, `IngestResult` | `Model/Record`, `Model/Options`, `Model/Ingest`, `Model/Manager` |
| `ingest.py` | all, with the laziness of the generators (lookups see earlier writes), also as steps of concurrent processes | `Model/Ingest`, `Model/Manager`, `Model/Concurrent` |
| `locking.py` | all of it; documents of locks in C91 | `Model/World`, `Model/LockDocs` |
| `manager.py` | all public methods of `SplitgillDatabase` (the client class only names the collections) | `Model/Manager`, `Model/World`, `Model/OptProcs`, `Model/Index`, `Model/Search`, `Model/Fields` |
| `indexing/index.py` | index names, wildcards, arc status, `generate_index_ops`, `RecordVersions`, the texts of the ops (`serialise`, C94) | `Model/Index`, `Model/Names`, `Model/Json`, `Model/RaisesWrite` |
| `indexing/syncing.py` | `write_ops`, the worker tasks, the retries, the bodies of bulk requests, pausing and resuming the refreshing of indices | `Model/Bulk`, `Model/Visible`, `Model/Names`, `Model/Json` |
| `indexing/options.py` | the builder | `Model/Options` |
| `indexing/parser.py` | `parse` and everything it calls | `Model/Parse`, `Model/Cache`, `Model/NumberText`, `Model/FloatText` |
| `indexing/geo.py` | hints, GeoJSON, WKT, the validity and the winding check; the geometry library is a parameter | `Model/Geo`, `Model/Coordinates` |
| `indexing/fields.py` | field names, paths, the types, `DataField`/`ParsedField` with all their properties | `Model/Parse`, `Model/Query`, `Model/Fields`, `Model/FieldProps` |
| `indexing/templates.py` | patterns and priorities, the mapping as far as queries depend on it (keyword normalizer, numbers, booleans, dates), the types of fields and the dynamic templates, the limit of 4000 fields; not shards and replicas | `Model/Names`, `Model/Query`, `Model/Mapping`, `Model/FieldLimit` |
| `search.py` | all queries with their meaning on documents, `rebuild_data`; words of full text are a parameter | `Model/Search`, `Model/Query`, `Model/Parse` |
| `utils.py` | `to_timestamp`, `parse_to_timestamp`, `now`, `partition`, `iter_terms` | `Model/Utils`, `Model/Time`, `Model/DateText`, `Model/Search` |

### What is not modelled

* Rounding of floats, except in `to_timestamp`, where a number is indexed or stored as a double (C50, C52, C54, C127), where numbers are read from and written as text (C110, C111, C113) and in the winding check (C117).
* Naive datetimes except where C50 needs them (C54_naive_partial, C54_naive_all_partial and C54_date say when this makes no difference).
* Scoring of full text and how texts are cut into words (a parameter), keyword arguments of `match_query` other than `operator`, highlighting, the geo queries of Elasticsearch other than `has_geo`.
* Logging, networking and authentication, connection errors other than the timeouts of bulk requests.
* The `regex` engine (only the character classes and the pattern for WKT, with `IGNORECASE`); performance, and memory except for C123 and C124.
* The `_id` ObjectIds of MongoDB.
* Caches (`lru_cache`): the model calls the cached function, except in C73.

## Layout

* `Verif/Py`      Python values and equality.
* `Verif/Model`   the model of the code (definitions only, with citations).
* `Verif/Spec`    small independent specifications used in theorem statements.
* `Verif/Proof`   lemmas.
* `Verif/Props`   the property theorems, each with a non-vacuity example.

When the code violates a property as stated, the negation is proved on a concrete witness
(theorem `Cxx_refuted…`), the guarded positive statement is proved as `Cxx…_partial`, and MANIFEST
says `partial`.

## Plan per property

| id | model | proof |
|----|-------|-------|
| C01 | `diff` (BFS queue), `patch` on `Value` | merged-tree function `merge`; patching a queue's ops equals setting `merge` at each path (independent paths commute); `merge l r` equal to `r` |
| C02 | same | queue invariant: a queued comparison has different sides, each such comparison eventually yields an op; paths distinct |
| C03 | same | refuted by `{x:1,y:0}`/`{x:True,y:1}`; holds for data in which equal scalars are identical (no bools, no integral floats, no -0.0) |
| C04 | heap of containers, `patch` as heap program | invariant: only freshly allocated addresses are written |
| C05 | `generate_ops`, `commit`, `rollback`, `MongoRecord.iter` over collections | refinement to an abstract history (list of committed versions + pending) |
| C06 | `get_versions` | corollary of the refinement |
| C07 | as C05, plus prefixes of bulk writes | refinement, every single op preserves committed versions |
| C08 | `rollback_records`, crash = prefix of ops | refinement |
| C09 | `commit`, clock as input | refuted (clock repeats); holds for strictly increasing clocks |
| C10 | `generate_ops` | from C02; refuted for NaN |
| C11 | `generate_ops` for one record | case analysis through the refinement |
| C12 | `modified_field` branch | case analysis |
| C13 | `prepare_record_data` | direct |
| C14 | lazy generator semantics of `partition(generate_ops)` | refuted across lookup batches; holds when no id spans two batches, and for ids in several batches when no operation waits for a record at the lookup of its batch (`Settled`: then the ingest is the batches ingested by calls of their own); a general case in which an id is always inserted twice |
| C15 | `IngestResult.update`, bulk results | sum over batches |
| C16, C17, C18, C19 | `prepare_field_name`, `prepare_data` over a richer input type | structural induction; C17 refuted for fallback objects; C19 refuted (key collision) |
| C20, C21 | lock collection transition system, N processes | inductive invariant |
| C22, C23 | `commit` over a client state, per-document crash points | direct; induction over prefixes |
| C24, C25 | shared options collection of all databases | refuted (no name filter); data/lock isolation proved |
| C26, C27, C28 | options, `GeoFieldHint.__eq__`, builder | C26 refuted; C27/C28 induction over builder calls |
| C29 | `RecordVersions.build` | fold invariant over the merged version list |
| C30-C35 | `generate_index_ops`, `sync`, `resync_arcs` | "indices = first sync of what was synced" invariant; refuted cases: update+delete between syncs, resync after delete, pending at sync |
| C36-C39 | `search`, `version_query`, aggregations over documents | from C29/C30 |
| C40 | arc counters | fold invariant |
| C41-C44 | asyncio worker transition system | inductive invariants over all schedules; liveness refuted by a stuck state |
| C45 | crash = prefix of the op stream | refuted (duplicate archives); positive part |
| C46 | index names, wildcard match | refuted for names extending one another with `-`; proved otherwise |
| C47, C48, C49 | `parse` with oracles, `rebuild_data` | structural induction; refuted for empty containers / special names |
| C50, C52, C65, C66 | the query as JSON-like data, its meaning on a parsed document through the mapping (`Model/Query`) | case analysis over the type looked for, using what `parse` puts at each path (`Spec/Query` says which stored values count) |
| C51 | `index_specific_version_filter` grouping | induction on the map of indices |
| C53 | shoelace over rationals, shapes of any number of rings | induction on rings; reversal negates the sum |
| C54 | double rounding modelled on rationals (`Model/Time`) | error bound of the two roundings; both are within the limits of the exponent (Proof/Exponents) |
| C55 | `partition` | strong induction |
| C56 | composite aggregation paging | induction on remaining keys |
| C57 | `get_data_fields`, `get_parsed_fields` over the indexed summaries | fold invariants, sums over buckets; refuted through C48 |
| C58 | string construction and a JSON decoder for it | refuted for quotes; proved (as an equivalence) for plain strings |
| C59 | any number of processes: lookups, single writes, rollbacks, interrupted commits, deaths | refuted with schedules; positive: invariant that every unwritten operation still fits the committed versions of its record |
| C60 | template pattern matching and priorities | string lemmas |
| C61 | max over versions | direct |
| C62 | the builder with optional arguments | refuted for empty texts; case analysis |
| C63 | `parse` with exceptions as values, geometry library as a parameter | structural induction; refuted by a hint on lists |
| C64 | `parse` for two orders of the formats | congruence of `parse` in the date reader; refuted by two formats that both match |
| C67 | geometry library as a parameter with stated laws (`GeoLib.Sane`) | every place put into parsed data comes from one of three matchers, each characterised by an equivalence |
| C68 | the store of C05 with an equality of data as a parameter (`DataClass`) | the invariant of C05 for equality with types; refuted by a type pun |
| C69 | `parse` | simulation by structural induction, sorting of the types at the end |
| C70 | the parser of the code as a parameter of the index model (`realParser`), histories from calls (`ingested`) | C05, C36, C47 and C69 together: the stored data is the ingested data up to the order of fields, parsing does not see that order |
| C71 | `ApiCall.run` | the invariant of C05 for calls |
| C72 | `to_timestamp` as in C54 | rounding is monotone |
| C73 | `Model/Cache`: `parse` with the `lru_cache` of `parse_value`, as a state that is passed on; `Model/CircleCache`: the same for `create_polygon_circle` | invariant: entries are right for their own key; keys that are the same have the same result |
| C74 | `syncOver`: `sync` with the records from a cursor; `Scanned`: what a cursor may give while the database changes | refuted by a commit during a sync; else the records that are read and those that are not (as they were when they did not match) make up a database with the same histories; with commits (`C74_each`): the documents that were read and those of the start that were not make up a good database, in which a record that nobody ingested is as it was, so the argument of C90 applies to it |
| C75 | `Model/Crash`: calls that stop at any write, with the commands of `commit` one by one, and a lock that may stay; `Step.Spec`: what each may do to the histories | invariant `LifeInv` (representation of histories, versions below the clock, options and lock of the database) kept by every step |
| C76 | the same, with `sync`, the parser of the code, `search` and `rebuild_data` | refuted by a first commit that stops between data and options; else C31 and C36 with the histories of C75 |
| C77 | `Model/Filter`: `search(version).filter(query)` on the indices that `sync` makes with the parser of the code; what is asked for is a relation on ingested data (`Asked.holds`) | C50, C52, C65, C66 on the parsed document; C70 for the document; a document parsed from equal data or with equal result matches the same queries |
| C78 | the same, with `get_data_fields` and `get_parsed_fields` | C57 on the documents found, transferred to the ids of the records |
| C79 | `OptHist`: committed and uncommitted options, changed by what calls are given and return; `get_options` and `committedOptionsOf` on the options collection of the model | the documents of the collection are those of the history, by induction over the calls and over the steps |
| C80 | `ChangesAt`: what is read of a record at a version and at the one before; `get_versions`, `get_rounded_version` and `get_version_changed_counts` on the indices that `sync` makes with the parser of the code | C38 and C39 on the indices; the document found is equal to what is read (C70, C77); without NaN `==` is an equivalence |
| C81 | `Scheduled`: syncs one after another, each with a schedule of the writer of C41; `ReadsSame`, `QueriesSame`: what the methods return | the ops of a sync depend on the documents, not on their order; C42 for each; aggregations and searches of permuted documents |
| C82 | `matchQuery`, `esTexts`, `esCopied` (copy_to of the templates), `EsMatch.matches` | texts at paths of the parsed data are the texts of the scalars of the data; then the history as in C77 |
| C83 | `matchHints`, `matchGeojson`, `parseValue`, `hasGeo`, `esCopied`; `PlaceAt` is the specification | exact content of parsed dicts at every path by induction; what is found by the history up to equality of Python |
| C84 | `IngestProc.step`, `ProcsState.run`, `ConcState.run`; `docsWith`, `DisjointIds`, `ingestAll` are the specification | simulation: a process and the documents of its records are the same with and without the others; alone, the machine refines `ingest` |
| C85 | `DateTime`, `datetimeText`, `dateText`, `strptime`, `readTimestamp`; `nextDay`, `ReadsDates`, `NoOtherReading` are the specification | the first way to match each directive reads the number back; the other two formats fail on the text or leave some of it |
| C86 | `Indices`, `visStep`, `writeVisibly`, `syncStart`; `Held`, `Settled`, `AllSent`, `FailedWrites` are the specification | invariant of `write_ops` and the indices: what is held by the queue and the workers is for paused indices; everything is sent before a refresh is asked for; erasure to the model of C41 |
| C87 | `Attempt`, `syncOps`, `writeOps`; `Attempt.Of`, `Returns` are the specification | the operations depend on the state of the archives only in the numbers of archives; operations about latest documents agree; sets of documents |
| C88 | `OptSys`, `OptCall.step`, `updateStep`, `commitStep`; `NewestOptions`, `Quiet`, `Clean`, `OnlyCommits` are the specification | invariant over all actions: the documents are those of the start plus at most the given one; changes of documents by any command |
| C89 | `ingested`, `optionsGiven`, `runSyncs`; `SameContent`, `SameFound`, `AllAfter` are the specification | later calls only add versions after v to the histories; both states find what their histories say as of v |
| C90 | `ingested`, `runSyncs`, `sync`; `QuietRecord` is the specification | what a sync does, for any contents of the indices, record by record (`sync_effect`, `sync_each`); per record the invariant of C31; data classes chosen per record |
| C91 | `runLocks` (documents of the lock collection and all methods); `holder`, `inside` are the specification, from calls and results | the collection agrees with `holder` and has each id once, by induction over the calls; a process inside is the only one |
| C92 | as C90, without the condition about deletions; `LeftBehind`, `ExistsNow` are the specification | the invariant of C90 with one more document in the latest index, by induction over the parts (`sync_stale`, `stale_parts`) |
| C93 | `tryParse`, `trySync`, `tryResyncArcs`: the functions of C30, C32 with exceptions of `parse` passed on; where libraries raise is a parameter (`Failures`) | by induction over the loop of `build` and the records; `PartitionsTime` gives the data and options that are parsed; that old documents stay is the lemma of C31 (`LaterFor.trunc`) |
| C94 | `dumps`, `Doc.toDict`, `BulkOp.serialise`, `bulkBody`: the text of a request; `readBulk` reads it line by line with a JSON reader written independently | round trip by mutual induction over values with the rest of the text as a parameter; `parse_leaves` for `C94_stored` |
| C95 | `sentDict` is what JSON keeps (`C94_json`), `rebuildData` as in C47 | rebuilding and the two equalities commute with `sent`; then C70; no test of a query is passed by NaN or an infinity; for exists queries through C66: every value has a text |
| C96 | `Heap.patch` (C04) and `patch` (C01); `Reads` says what value a reference stands for | by induction over the path and the ops: each op writes only into containers copied for it, which nothing else refers to |
| C97 | `tryStream` is `generate_index_ops` as a stream that an exception ends, `writeRaising` is `write_ops` with such a stream | the run is one of C86 in which the main task never gets to the refresh; the version seen stays the same, so the same records are looked at |
| C98 | Mapping of an index as a list of path and type; dynamic templates as patterns over paths; documents as they are sent (C94). | Parsed data has a shape (types at their names, fields elsewhere), kept by JSON; induction over the document with the invariant that every type is that of its path. |
| C99 | The calls of the API with a client that encodes each operation and raises at the first it cannot encode, after writing some of those before it. | The leaves of diffs come from the older data and those of patched data from the diffs and the data, by induction over diff and patch; invariants over the chunks, the batches and the calls. |
| C100 | The mapping of Elasticsearch (see C98) with the limit of the template. | Every path in a document is the path of a field of the data, or of a type in it: by induction over the parser with the path at hand. A mapping has different paths, so it is no longer than the list of them. |
| C101 | The properties of DataField and ParsedField, on top of the listings of C57. | Both listings are what C57 says they are; then counts are compared document by document, by induction over the data: what is indexed occurs, what occurs has a parent, and a typed exists query finds what is indexed. `C101_calls_partial` and `C101_syncs_partial` say it of the documents that a search with any query finds at any version after calls and syncs (`Verif.Props.FieldCalls`), and the theorems of `Verif.Props.FieldSteps` when calls may be stopped. |
| C102 | Elasticsearch as named indices with a mapping and JSON documents, bulk requests as texts; sync and search reading from these. | Refinement: a relation between the documents of the model of syncs and the JSON documents in the indices is kept by every operation that is sent, and everything that sync and search read is the same in both; then C70 and C95. |
| C103 | The steps of Model/Crash, the syncs, and the queries of Model/Filter, Model/Text and Model/Places. | The invariant of C76 gives one history for all records; the lemmas behind C77, C78, C80, C82 and C83 are about this invariant and apply. |
| C104 | `Cluster.currentIndices` in Model/Current over the cluster of Model/Names; `SyncedCluster` in Spec/Current. | Membership through the lemmas on wildcards of C46, the order through those on sorting; the archives by induction over the syncs with the invariant of C40. |
| C105 | `ES.doubleVersion`, `syncByDoubles`, `ES.searchByDoubles` in Model/Doubles, with the rounding of Model/Time; `IsNewest`, `runByDoubles` in Spec/Doubles. | Ints up to 2**53 are doubles, so rounding does not change them; the documents of syncs have versions of the data and the options (the lemmas of C102), by induction over the syncs. |
| C106 | `indexEntries`, `EsQuery.matchesIn`, `Server.ask` in Model/Entries on the indices of Model/Wire; `EsQuery.Made` in Spec/Entries. | Mapping a document only adds types and gives one to each of its fields, by induction; the entries of a document of the parser are its scalars at paths that end with a type, by induction over its shape; the indices of the model of syncs show those of Elasticsearch (the invariant of C102, extended by this). |
| C107 | `Server.changedCounts`, `Server.versions`, `Server.roundedVersion`, `Server.fieldsOfData`, `Server.fieldsOfParsed` in Model/Entries; `ServerFinds` in Spec/Entries. | The entries of a document outside of its data are those of its fields, by the types of the initial mapping; then the invariant of C106 and the results of C39, C78 and C80. |
| C108 | `formatDirs`, `repeatsDirs`, `dateLoop` in Model/DateText; `Piece`, `Writes`, `SeparatedDirs` in Spec/DateReads. | strptime is sound for the grammar by induction over the directives with all branches of the backtracking; complete if numbers are separated, as then each directive takes all it can; texts of different default formats have different lengths of digits or separators. |
| C109 | Model/OptProcs; `OptSys.Inside`, `CarefulOpt`, `docsLeft`, `TakesDocs` in Spec/OptCalls. | The lock invariant of C20 for the processes that are in a commit; a rank of the commands that decreases with each; the lock as it will be when the process has left is an invariant of its steps. |
| C110 | `textNumber` in Model/NumberText; `Numeral` in Spec/NumberText. | The reader strips blanks, then takes a sign, a mantissa and an exponent; it agrees with the grammar as no part can start with a character that the part before could take; then C50 gives that the record is found. |
| C111 | `formatG` in Model/FloatText; `RoundedDecimal`, `WritesDecimal` in Spec/FloatText. | Rounding to decimals as rounding to doubles in C54; two numbers with p digits of a base are at least a part of base^-p apart, so that 15 digits survive a double and a double survives 17 digits; the text is one of the grammar of C110. |
| C112 | `readPoint`, `readRadius` in Model/Coordinates; `Coordinates`, `AnyNumber`, `GeoLib.Reads` in Spec/Coordinates. | Reading as in C110, rounding as in C54; the rest from C67 and C83. The counterexample is computed. |
| C113 | `digitsFor`, `shortDigits`, `layout`, `jsonFloat` in Model/JsonFloat; `ShortestDecimal`, `WritesJson` in Spec/JsonFloat. | Between two decimals of p digits around a float no other of p digits lies, and rounding is monotone, so if neither of the two is read as the float none is; 17 digits are enough (C110). The text is read by the scanner of C110. |
| C114 | `depthLimit`, `objectDepth`, `depthDoc`, `BulkOp.idOk` in Model/Depth; `MadeFromShallow`, `MadeFromDeep` in Spec/Depth. | The fields that a document adds are those of C100, whose paths have one dot for each name and one for the type; a value at a path of the data is at that path with `_u` in the document (C33), and mapping a document maps all that is in it. |
| C115 | `Signed`, `esSigned`, `leSigned`, `ES.searchSigned` in Model/Zeros (doubles with both zeros, compared as Lucene does); `IsNegZero`, `Bounds.HoldsNegZero` in Spec/Zeros. | The lemmas of C50 and C52 are for any conversion of values and order. A negative zero in a document comes from a value at a path of the data (C50), which is a value of the given data (C70). |
| C116 | `validIndexName`, `validCollectionName` (the rules of Elasticsearch and pymongo), `syncNamed`, `resyncArcsNamed` in Model/IndexNames; `NameChars`, `addedBytes` in Spec/IndexNames. | The name of an index is the name of the database between plain characters; the indices after a sync are those before it and those of its operations. |
| C117 | `edgeFl`, `plainSum`, `compensatedSum`, `isWindingValidFl`, `geojsonParsedFl` in Model/GeoFloat; `ClearRing`, `GridRing` in Spec/GeoFloat. | Each operation has a relative error of at most 2**-53; induction over the sum bounds the error by (1 + 3n/2**53)(1 + 2**-53)**(n+4) - 1 times the size of the edges. On a grid all numbers that occur are floats. |
| C118 | `bsonLevels`, `MongoRecord.toBson`, `levelsOk`, `writeLevels`, `ApiCall.runLevels` in Model/Levels; `NestedWithin`, `DoneOrStopped` in Spec/Levels. | The levels of a diff are bounded by those of the older data, by induction over the comparisons; an invariant over calls keeps data and diffs of all documents bounded. |
| C119 | `bsonSize`, `MongoRecord.size`, `writeSized`, `commitSized`, `ApiCall.runSized` in Model/Size; `StepsOf` in Spec/Size. | The size of a document is computed from its fields; each diff adds bytes; a refused call is shown to be steps of the crash model (C75). |
| C120 | `Writer`, `Writer.step`, `WritersState.run` in Model/Writers, on top of `IngestProc` and `Pc`; `CarefulWriters`, `ClockForward`, `NoOtherCommit`, `ShowsRecord` in Spec/Writers. | Invariants over schedules: one holder of the lock; which of the process's documents are uncommitted after its update_many; bounds on versions in documents and in operations not yet written; each record is not looked up, to be written, or written. |
| C121 | `resyncOver`, `resyncArcsOver` in Model/Resync; `TidyLatest`, `ReadRecord`, `CommittedUntouched`, `foundData` in Spec/Resync. | What the cursor gave is made a database of its own (`ScanAs`), whose records have good histories; a resync of it is compared with a first sync (`generate_all`); for records that others commit, documents up to a version are compared (`trunc_found`). |
| C122 | `WritersState` in Model/Writers; `WritersOk`, `FreshVersions`, `afterWriters` in Spec/WriterHist. | Each record has one process that can write it; along a schedule its document represents a history (`WriterHist`, `IdPhase`), which commits of others only close; then `RColl` gives the sync and the search. |
| C123 | `writeOps` in Model/Bulk; `heldOps`, `answeredOps`, `aheadOps` in Spec/BulkBound. | Invariant of the tasks (`BulkBounded`) by induction over the schedule, together with that of C41 (each chunk is in one place). |
| C124 | `IngestProc`, `WritersState` in Model/Procs and Model/Writers; `Undisturbed`, `isStep` in Spec/IngestSteps. | A measure of the work left (`IngestProc.work`) goes down with each own step; sizes are an invariant (`Held`); no lookup raises because every document represents a history (from C122). |
| C125 | `CanHold` in Spec/Reads over `generateOps` and `BulkOp.apply`; `afterSteps`, `afterCalls`, `afterWriters` as before. | Induction over `CanHold`: an operation adds only its own document, which is one of those of C29 for the history read; later versions do not change what is as of an older one. |
| C126 | `Overlap` in Spec/Overlap: operations of `syncOps` for two states, merged in any order and applied. | The documents of the earlier state are those of the later one cut off at its time (Proof/Sync2), so ended ones are the same; the latest index is decided by the last operation of each record. |
| C127 | Model/BsonBytes: `bsonBytes` and `readDocument`, `MongoRecord.ofBson` (`MongoRecord(**doc)`). Model/DoubleBytes: `doubles`. Model/BsonStore: `afterBytes`, calls that work on what is read from the bytes. | Mutual induction over values for reading what was written; the values and names in all that is stored are those of the prepared data, and positions in diffs are below the lengths of its lists, by induction over calls (Proof/Bson2, Proof/BsonNames, Proof/BsonNumbers); the same for calls that are stopped half way (Proof/BsonSteps) and, with the limit of C119, without a bound on the length in the hypotheses. |
| C128 | No new definitions: `sync` with `resync`, `resyncArcs` (Model/Index) and the steps of Model/Crash. | C32 and C33 say that the documents are those of a first sync; C103 and C101 are proved from what the documents are. |
| C129 | No new definitions: `ES.search .latest` (Model/Search), `ES.searchFor` and the listings (Model/Filter). | From some version on a search at a version looks at the latest index only, so what C103, C78 and C101 say at a version that is late enough is said of the newest data. For single records (`C129_each`) the same with C90. |
| C130 | No new definitions: `ES.search .all` (Model/Search) and `ES.searchFor` (Model/Filter). | The documents of a record divide the time (C29), so what C103 says at each version is said of the documents that cover it. For single records (`C130_each`) from what C90 knows of the documents of one record. |
| C131 | No new definitions. | What C129_each and C130_each say of a record depends on its history and the committed options only. |
| C132 | `runSyncs`, `found`; `ingested`, `Returned` and `Truthful` are the specification | Each document after a sync was there before or is one of a record at the time of that sync, whose documents divide the history of the record; later calls do not change the history as of earlier versions. If others write during syncs, the record is one of some moment of the sync, with the options at its start. |

## Findings

Each is proved as a theorem about a concrete case of the model (`…refuted…`), next to the positive theorem that
holds otherwise. In short: C03 (types that compare equal are not told apart), C09 (two commits in one millisecond),
C10 (NaN), C14 (an id in two lookup batches is inserted twice), C17/C18 (texts of other objects are not cleaned),
C19 (names that clean to the same name), C24/C25 (options queries lack the database name), C26 (hints equal by
latitude only), C29/C36 (options committed before a record was created), C31/C32/C35 (documents that stay or are
missing after changes and deletes between syncs; two documents for one version after a change of type), C68 (types of
older versions), C70 (empty containers are lost on the way), C39 (counts overwritten), C43 (a failure in the last chunk makes
`write_ops` wait forever), C44/C45 (duplicates after timeouts and repeated syncs), C46 (names that extend one
another), C47 (empty containers), C48/C57 (nested names starting with `#`), C50 (long strings, naive datetimes),
C52 (ints above 2**53), C54 (one millisecond less), C56 (order of terms), C58 (ids with quotes), C59 (ingest takes
no lock), C61 (all records uncommitted), C62 (empty texts), C63 (hints on lists), C93 (formats that raise), C64 (order of formats), C65 (ids
compared without case), C53 (coordinates with three dimensions raise), C72 (one timestamp for two milliseconds), C73
(the cache does not tell `-0.0` from `0.0`), C74 (a
commit during a sync: records that are never indexed), C76 (a first commit that stops between data and options leaves a
database that cannot be synced), C85 (years before 1000 written with fewer than four digits are not read as dates),
C86 (indices are refreshed one after another; a `write_ops` without operations refreshes and resets all indices of Elasticsearch, also
those that another sync has paused), C87 (syncs at the same time fill the archives with duplicates), C88 (options lost to a
rollback, another update or the default options of a first commit at the same time), C97 (a sync that raises
after writing its first indices makes, once somebody refreshes, the next sync skip the rest; archives are lost to a resync that raises). Seen but not stated as properties: `refresh` with `attempts=0` retries for ever; after a failed
sync the indices stay without replicas and without refreshing until a later sync writes to them; an ingest of data that is pending, with another `modified_field`, may revert the pending data.

## Testing the theorems

`tools/mutate.py` applies realistic bugs to a copy of the model outside `/verif`, rebuilds it and records which
theorems fail; `seeded/mutants_*.json` are the bugs and `seeded/LOG.jsonl` the results, with what was tightened.
