{"id": "C01", "title": "diff/patch round trip", "statement": "For any two dicts base and new, patch(base, list(diff(base, new))) completes without raising and returns a dict equal to new in Python's sense (dict equality ignores key order, 1 == 1.0 == True, a NaN counts as equal to itself).", "quantifier": "all pairs of dicts of JSON-like values, any nesting depth, any sizes, including NaN/inf values", "why_tests_cant": "The space of nested dict/list pairs is infinite and the ops are emitted breadth first, so correctness depends on how ops at different depths interact.", "anchors": ["splitgill/diffing.py:diff", "splitgill/diffing.py:patch", "splitgill/diffing.py:DictComparison.compare", "splitgill/diffing.py:ListComparison.compare"]}
{"id": "C02", "title": "diff detects exactly the changes", "statement": "list(diff(base, new)) is empty if and only if base == new; every DiffOp yielded carries at least one change, and no two DiffOps of one diff target the same path.", "quantifier": "all pairs of dicts", "why_tests_cant": "Quantifies over all nested structures; a single missed difference silently drops a version.", "anchors": ["splitgill/diffing.py:diff", "splitgill/diffing.py:DictComparison.compare", "splitgill/diffing.py:ListComparison.compare"]}
{"id": "C03", "title": "diff/patch is type exact", "statement": "patch(base, list(diff(base, new))) is the same data as new including the types of the values (bool, int and float values are not swapped for one another), up to dict key order.", "quantifier": "all pairs of dicts", "why_tests_cant": "Only shows up for pairs of values of different types that compare equal, hidden at any depth.", "anchors": ["splitgill/diffing.py:diff", "splitgill/diffing.py:patch"]}
{"id": "C04", "title": "patch does not modify its inputs", "statement": "patch(base, ops) never changes base, any container reachable from base, or any container reachable from ops, whether it returns or raises.", "quantifier": "all heaps (arbitrary sharing between base, its nested containers and the ops), all op lists", "why_tests_cant": "Aliasing is a property of every object graph; tests check a few graphs.", "anchors": ["splitgill/diffing.py:patch"]}
{"id": "C05", "title": "record history is reconstructed from diffs", "statement": "After any sequence of ingest, commit and rollback_records calls with strictly increasing commit times, iterating a record (MongoRecord.iter) yields its current state first and then every earlier committed version of that record exactly once in strictly descending order, each with data equal to what was ingested for it.", "quantifier": "all operation histories of any length, all record data, all ids (streams whose ids do not span lookup batches, see C14)", "why_tests_cant": "History length and data are unbounded; each reconstruction chains all later diffs.", "anchors": ["splitgill/model.py:MongoRecord.iter", "splitgill/ingest.py:generate_ops", "splitgill/manager.py:SplitgillDatabase.ingest", "splitgill/manager.py:SplitgillDatabase.commit"]}
{"id": "C06", "title": "get_versions lists the committed versions", "statement": "MongoRecord.get_versions() returns exactly the committed versions of the record in ascending order (descending with desc=True), never including the uncommitted state. Its properties say whether the newest state is uncommitted (is_uncommitted), whether it is a deletion (is_deleted) and whether there are states before it (has_history).", "quantifier": "all records reachable by ingest/commit/rollback histories, both orders (streams as in C05)", "why_tests_cant": "Ranges over all reachable records.", "anchors": ["splitgill/model.py:MongoRecord.get_versions"]}
{"id": "C07", "title": "committed history is immutable", "statement": "Once a version of a record has been committed, no later ingest, commit or rollback_records call (complete, or stopped by a crash after any write) removes it or changes the data that MongoRecord.iter yields for it (in Python equality).", "quantifier": "all histories, all later operation sequences, all crash points inside them (streams as in C05)", "why_tests_cant": "Must hold for every extension of every history.", "anchors": ["splitgill/ingest.py:generate_ops", "splitgill/ingest.py:generate_rollback_ops", "splitgill/manager.py:SplitgillDatabase.commit", "splitgill/model.py:MongoRecord.iter"]}
{"id": "C08", "title": "rollback restores the last committed state", "statement": "rollback_records() leaves no uncommitted data, leaves the committed versions of every record as they were and removes exactly the records that have no committed version; this also holds when the preceding ingest crashed after any number of its writes, and running it again (or after a crash part way through) gives the same result.", "quantifier": "all histories, all crash points of an ingest and of the rollback itself (streams as in C05)", "why_tests_cant": "Every crash point of every stream has to be covered.", "anchors": ["splitgill/manager.py:SplitgillDatabase.rollback_records", "splitgill/ingest.py:generate_rollback_ops", "splitgill/ingest.py:revert_record"]}
{"id": "C09", "title": "every commit is a distinct, later version", "statement": "The version a commit assigns is greater than every version committed before it, so that no two committed states of a record share a version.", "quantifier": "all histories and all clock readings, including two commits in one millisecond and a clock stepping backwards", "why_tests_cant": "Depends on wall clock behaviour that tests freeze.", "anchors": ["splitgill/manager.py:SplitgillDatabase.commit", "splitgill/utils.py:now", "splitgill/model.py:MongoRecord.iter"]}
{"id": "C10", "title": "re-ingesting unchanged data is a no-op", "statement": "Ingesting a record whose prepared data equals the record's current data generates no write and commit assigns no new version to it.", "quantifier": "all records, all data, committed or uncommitted current state", "why_tests_cant": "Ranges over all data; NaN makes equality non reflexive.", "anchors": ["splitgill/ingest.py:generate_ops", "splitgill/diffing.py:diff"]}
{"id": "C11", "title": "ingest result of one record", "statement": "After ingesting a record (no modified_field) its current data is the prepared data of that record; the record is uncommitted exactly when that data differs from its last committed data; a delete of an unknown record or of a never committed record leaves no record; a delete of a committed record leaves empty current data; deleted records can be re-added with history kept.", "quantifier": "all current record states (absent, uncommitted, committed, committed with uncommitted changes, deleted) and all new data", "why_tests_cant": "The case split on the state of the record must be exhaustive for all data.", "anchors": ["splitgill/ingest.py:generate_ops", "splitgill/ingest.py:revert_record"]}
{"id": "C12", "title": "modified_field is ignored when it is the only change", "statement": "With modified_field given and present in both the new data and the last committed data, ingesting data that differs at most in the value of that field leaves the record at its last committed version with no uncommitted change; if anything else differs, the new data including the modified field is stored.", "quantifier": "all committed records, all new data, any field name", "why_tests_cant": "Ranges over all data and states.", "anchors": ["splitgill/ingest.py:generate_ops"]}
{"id": "C13", "title": "prepared data always carries the record id", "statement": "The stored data of a non-deleted record always has an _id field equal to the (cleaned) record id, whatever _id the caller supplied, and a stored record is empty exactly when the caller passed empty data.", "quantifier": "all record ids and data", "why_tests_cant": "Ranges over all inputs.", "anchors": ["splitgill/ingest.py:prepare_record_data"]}
{"id": "C14", "title": "last write wins for duplicate ids in one stream", "statement": "After ingest(records), every id occurring in the stream has at most one record in the collection, and it is in the state produced by the last occurrence of that id in the stream.", "quantifier": "all record streams of any length with any repetition of ids, all prior collection states", "why_tests_cant": "Depends on the alignment of lookups with lazily evaluated bulk writes over arbitrarily long streams.", "anchors": ["splitgill/manager.py:SplitgillDatabase.ingest", "splitgill/ingest.py:generate_ops", "splitgill/utils.py:partition"]}
{"id": "C15", "title": "ingest counts", "statement": "The IngestResult counts of an ingest equal the number of records inserted, modified and removed by it, summed over all batches.", "quantifier": "all streams whose ids do not span lookup batches (see C14), any number of batches", "why_tests_cant": "Ranges over all streams and batchings.", "anchors": ["splitgill/model.py:IngestResult.update", "splitgill/manager.py:SplitgillDatabase.ingest"]}
{"id": "C16", "title": "field names are sanitised", "statement": "Every field name at every depth of the data stored by ingest is non-empty, contains no dot and no unicode control (category C) character, has no surrounding whitespace and does not start with an underscore unless it is exactly _id.", "quantifier": "all input data at any depth, all key types", "why_tests_cant": "Ranges over all strings and nestings.", "anchors": ["splitgill/diffing.py:prepare_field_name", "splitgill/diffing.py:prepare_data", "splitgill/ingest.py:prepare_record_data"]}
{"id": "C17", "title": "string values are sanitised", "statement": "Every string value at every depth of the data stored by ingest contains no unicode control (category C) character other than newline, carriage return and tab.", "quantifier": "all input data at any depth and of any Python type", "why_tests_cant": "Ranges over all inputs, including arbitrary objects that are stringified.", "anchors": ["splitgill/diffing.py:prepare_data"]}
{"id": "C18", "title": "preparing data is idempotent", "statement": "prepare_data(prepare_data(v)) == prepare_data(v), and prepare_field_name(prepare_field_name(n)) == prepare_field_name(n): data read back and ingested again is not changed by the cleaning.", "quantifier": "all values and names", "why_tests_cant": "Ranges over all strings and nestings.", "anchors": ["splitgill/diffing.py:prepare_data", "splitgill/diffing.py:prepare_field_name"]}
{"id": "C19", "title": "cleaning loses no field", "statement": "prepare_data of a dict has one entry for every entry of the input.", "quantifier": "all dicts", "why_tests_cant": "Two different names can be cleaned to the same name; tests use benign names.", "anchors": ["splitgill/diffing.py:prepare_data", "splitgill/diffing.py:prepare_field_name"]}
{"id": "C20", "title": "commits of one database are mutually exclusive", "statement": "For any number of processes committing the same database in any interleaving, at most one is between acquiring and releasing the lock; the others get AlreadyLocked and change nothing (as long as nobody calls release() for a lock a living process holds).", "quantifier": "all interleavings of any number of processes", "why_tests_cant": "Interleavings are unbounded.", "anchors": ["splitgill/locking.py:LockManager.lock", "splitgill/locking.py:LockManager.acquire", "splitgill/manager.py:SplitgillDatabase.commit"]}
{"id": "C21", "title": "locks are released unless the process dies", "statement": "A lock taken with the lock context manager is released when the body returns or raises; after a process crash inside the body the lock stays held, every later commit raises AlreadyLocked until release() is called, and locks with other ids are never affected.", "quantifier": "all lock histories, all crash points", "why_tests_cant": "Ranges over all histories.", "anchors": ["splitgill/locking.py:LockManager.lock", "splitgill/locking.py:LockManager.release", "splitgill/locking.py:LockManager.is_locked"]}
{"id": "C22", "title": "commit commits everything at one version", "statement": "commit() returns None and changes nothing if and only if there is nothing uncommitted; otherwise it returns a version and afterwards no data and no options are uncommitted and exactly the previously uncommitted records have that version.", "quantifier": "all states of a database (no other database of the client having uncommitted options, see C24)", "why_tests_cant": "Ranges over all states.", "anchors": ["splitgill/manager.py:SplitgillDatabase.commit", "splitgill/manager.py:SplitgillDatabase.has_uncommitted_data"]}
{"id": "C23", "title": "an interrupted commit can be completed", "statement": "If a commit is interrupted after any number of its writes, no data is lost: running rollback of nothing but releasing the lock and committing again gives every record that was uncommitted a version, and each record's history is what it would have been except for the version numbers.", "quantifier": "all states, all crash points inside commit", "why_tests_cant": "All crash points in multi-document updates.", "anchors": ["splitgill/manager.py:SplitgillDatabase.commit"]}
{"id": "C24", "title": "databases are isolated in MongoDB", "statement": "ingest, commit, update_options and rollback on one database never change the data, options, committed versions or lock of another database of the same client.", "quantifier": "all pairs of databases, all states", "why_tests_cant": "Ranges over all states of all databases; tests use one database.", "anchors": ["splitgill/manager.py:SplitgillDatabase.commit", "splitgill/manager.py:SplitgillDatabase.rollback_options", "splitgill/manager.py:SplitgillDatabase.has_options", "splitgill/manager.py:SplitgillDatabase.has_uncommitted_options"]}
{"id": "C25", "title": "committed data always has options", "statement": "After a commit that commits data returns, get_options() of that database is not empty, so sync can always parse the records.", "quantifier": "all histories over any number of databases of one client", "why_tests_cant": "Depends on histories of other databases.", "anchors": ["splitgill/manager.py:SplitgillDatabase.commit", "splitgill/manager.py:SplitgillDatabase.has_options", "splitgill/indexing/index.py:RecordVersions.build"]}
{"id": "C26", "title": "update_options takes effect", "statement": "After update_options(options) and a commit, the latest committed options are the given options.", "quantifier": "all option values and histories", "why_tests_cant": "Depends on the equality used to suppress unchanged options.", "anchors": ["splitgill/manager.py:SplitgillDatabase.update_options", "splitgill/model.py:GeoFieldHint.__eq__", "splitgill/model.py:ParsingOptions"]}
{"id": "C27", "title": "options survive storage", "statement": "ParsingOptions.from_doc(options.to_doc()) equals options, field by field (hints with all their fields), whatever order the sets are written in.", "quantifier": "all options", "why_tests_cant": "Ranges over all options.", "anchors": ["splitgill/model.py:ParsingOptions.to_doc", "splitgill/model.py:ParsingOptions.from_doc"]}
{"id": "C28", "title": "options builder invariants", "statement": "For any chain of builder calls that does not raise: the built options have a keyword length between 1 and 32766, at most one geo hint per latitude field and it is the last one set, lowercased true/false values only; building from existing options gives options equal field by field.", "quantifier": "all chains of builder calls", "why_tests_cant": "Chains are unbounded.", "anchors": ["splitgill/indexing/options.py:ParsingOptionsBuilder"]}
{"id": "C29", "title": "record versions partition time", "statement": "For any record history and options history, the documents created for the record have pairwise disjoint version ranges, and for every version v there is a document covering v exactly when the record has been created and is not deleted at v; that document holds the parse of the data as of v with the options as of v.", "quantifier": "all record histories, all options histories, all versions", "why_tests_cant": "Merging two unbounded timelines.", "anchors": ["splitgill/indexing/index.py:RecordVersions.build", "splitgill/indexing/index.py:RecordVersion.create_doc", "splitgill/indexing/index.py:RecordVersion.version_end"]}
{"id": "C30", "title": "first sync indexes the whole history", "statement": "Syncing into empty indices writes, for every committed record, exactly one document per record version; the open one (if the record is not deleted) goes to the latest index under the record id and all others to archive indices.", "quantifier": "all databases, all histories", "why_tests_cant": "Unbounded histories and record counts.", "anchors": ["splitgill/indexing/index.py:generate_index_ops", "splitgill/manager.py:SplitgillDatabase.sync"]}
{"id": "C31", "title": "incremental sync equals full sync", "statement": "After any alternation of commits and syncs, the indexed documents (per record: the latest document and the multiset of archived documents) are those a first sync of the whole history would produce.", "quantifier": "all sequences of commits (updates, deletes, re-adds, options changes) and syncs", "why_tests_cant": "Depends on where the syncs fall in an unbounded history.", "anchors": ["splitgill/indexing/index.py:generate_index_ops", "splitgill/manager.py:SplitgillDatabase.sync", "splitgill/manager.py:SplitgillDatabase.get_elasticsearch_version"]}
{"id": "C32", "title": "resync repairs the indices", "statement": "sync(resync=True) makes the indexed documents those a first sync would produce, whatever was in this database's indices before.", "quantifier": "all index states, all histories", "why_tests_cant": "All damaged index states.", "anchors": ["splitgill/manager.py:SplitgillDatabase.sync"]}
{"id": "C33", "title": "resync_arcs rebuilds the archives", "statement": "resync_arcs() leaves the latest index untouched and makes the archive documents those a first sync would produce, whatever was in the archive indices before.", "quantifier": "all index states, all histories", "why_tests_cant": "All damaged index states.", "anchors": ["splitgill/manager.py:SplitgillDatabase.resync_arcs"]}
{"id": "C34", "title": "sync is idempotent", "statement": "A second sync with no commit in between writes nothing.", "quantifier": "all histories", "why_tests_cant": "All histories.", "anchors": ["splitgill/manager.py:SplitgillDatabase.sync", "splitgill/indexing/index.py:generate_index_ops"]}
{"id": "C35", "title": "uncommitted changes do not disturb syncing", "statement": "Whether or not records have uncommitted changes when sync runs, after the sync every committed version of every record is in the indices.", "quantifier": "all states with pending changes at the time of a sync", "why_tests_cant": "All interleavings of ingest(commit=False), commit, sync.", "anchors": ["splitgill/manager.py:SplitgillDatabase.sync", "splitgill/manager.py:SplitgillDatabase.iter_records"]}
{"id": "C36", "title": "search at a version returns that snapshot", "statement": "After a sync, search(v) finds for every record exactly the document holding its data as of version v parsed with the options as of v, and nothing for records not existing or deleted at v; search(latest) finds the current data of every non-deleted record.", "quantifier": "all histories, all versions v (below, between, equal to and above the committed ones)", "why_tests_cant": "All versions of unbounded histories.", "anchors": ["splitgill/manager.py:SplitgillDatabase.search", "splitgill/search.py:version_query", "splitgill/indexing/index.py:RecordVersion.create_doc"]}
{"id": "C37", "title": "latest shortcut of versioned search", "statement": "For v at or above the newest indexed version, searching the latest index without a filter finds the same documents as searching all indices with the version filter.", "quantifier": "all synced states, all v", "why_tests_cant": "All states.", "anchors": ["splitgill/manager.py:SplitgillDatabase.search", "splitgill/manager.py:SplitgillDatabase.get_elasticsearch_version"]}
{"id": "C38", "title": "version rounding", "statement": "get_versions() is strictly ascending and contains exactly the versions at which the indexed data changed; get_rounded_version(v) is the greatest of them not above v, None iff there is none, and search(v) and search(get_rounded_version(v)) find the same documents.", "quantifier": "all synced states, all v", "why_tests_cant": "All states and versions.", "anchors": ["splitgill/manager.py:SplitgillDatabase.get_rounded_version", "splitgill/manager.py:SplitgillDatabase.get_versions"]}
{"id": "C39", "title": "changed counts", "statement": "get_version_changed_counts()[v] is the number of records that were added, modified or deleted at version v.", "quantifier": "all synced states, all v", "why_tests_cant": "All combinations of additions, modifications and deletions in one version.", "anchors": ["splitgill/manager.py:SplitgillDatabase.get_version_changed_counts"]}
{"id": "C40", "title": "archive indices are filled in order and bounded", "statement": "Starting from an archive status with at most MAX documents, no archive index receives documents beyond MAX, archive numbers are used in non-decreasing order without gaps, and every archive before the last used is full.", "quantifier": "all op streams, all MAX >= 1, all starting statuses", "why_tests_cant": "Unbounded streams.", "anchors": ["splitgill/indexing/index.py:generate_index_ops", "splitgill/manager.py:SplitgillDatabase.get_arc_status"]}
{"id": "C41", "title": "bulk write applies every op exactly once", "statement": "If write_ops returns normally and no bulk request timed out, every op of the stream has been sent in exactly one successful bulk request and the indexed/deleted totals are the numbers of index and delete ops, for every scheduling of the workers.", "quantifier": "all op streams, chunk sizes, worker counts, buffer sizes and schedules", "why_tests_cant": "Async schedules are unbounded.", "anchors": ["splitgill/indexing/syncing.py:write_ops_async", "splitgill/indexing/syncing.py:worker", "splitgill/indexing/syncing.py:WriteResult"]}
{"id": "C42", "title": "scheduling does not change the result", "statement": "The indices after a sync do not depend on chunk_size, worker_count, buffer size or the order in which workers send chunks (archive documents compared as a multiset).", "quantifier": "all orders of chunks, all op streams generated for records with distinct ids", "why_tests_cant": "All permutations.", "anchors": ["splitgill/indexing/index.py:generate_index_ops", "splitgill/indexing/syncing.py:write_ops_async"]}
{"id": "C43", "title": "errors are never swallowed", "statement": "If any item of any bulk response is an error or a bulk request finally times out, write_ops does not return normally and the indices are not refreshed; and write_ops always finishes (it returns or raises).", "quantifier": "all streams, all schedules, all error positions", "why_tests_cant": "All schedules.", "anchors": ["splitgill/indexing/syncing.py:worker", "splitgill/indexing/syncing.py:check_for_errors", "splitgill/indexing/syncing.py:write_ops_async"]}
{"id": "C44", "title": "timeouts and retries write every document once", "statement": "A bulk request that times out is retried at most three times, and retrying does not duplicate documents.", "quantifier": "all patterns of timeouts, including requests applied by the server although the client timed out", "why_tests_cant": "All timeout patterns.", "anchors": ["splitgill/indexing/syncing.py:worker", "splitgill/indexing/syncing.py:refresh"]}
{"id": "C45", "title": "a failed sync can be repeated", "statement": "After a sync that stopped part way, running sync again produces the same indices as a single successful sync.", "quantifier": "all crash points in the op stream, all histories", "why_tests_cant": "All crash points.", "anchors": ["splitgill/manager.py:SplitgillDatabase.sync", "splitgill/indexing/index.py:generate_index_ops"]}
{"id": "C46", "title": "databases are isolated in Elasticsearch", "statement": "Searching, version detection, syncing and resyncing one database never involve the documents of another database.", "quantifier": "all pairs of database names", "why_tests_cant": "All pairs of names; wildcard matching.", "anchors": ["splitgill/indexing/index.py:IndexNames", "splitgill/manager.py:SplitgillDatabase.get_elasticsearch_version", "splitgill/manager.py:SplitgillDatabase.search", "splitgill/manager.py:SplitgillDatabase.get_arc_status"]}
{"id": "C47", "title": "original data can be rebuilt from the index", "statement": "rebuild_data(parse(data, options).parsed) == data for any prepared data.", "quantifier": "all prepared data, all options, any geo/number/date recognition results", "why_tests_cant": "All nestings.", "anchors": ["splitgill/search.py:rebuild_data", "splitgill/indexing/parser.py:parse"]}
{"id": "C48", "title": "type summaries have one entry per field", "statement": "parse(data, options).data_types (and parsed_types) contain each field path at most once, listing exactly the types that occur at that path, each once.", "quantifier": "all prepared data", "why_tests_cant": "Depends on string sort order of paths and types.", "anchors": ["splitgill/indexing/parser.py:parse", "splitgill/indexing/parser.py:parse_dict", "splitgill/indexing/parser.py:parse_list"]}
{"id": "C49", "title": "parsed values", "statement": "Every non-empty scalar is indexed with its unparsed value, its text and its keyword (the first keyword_length characters of the text); booleans have a boolean and no number (unless their text parses as one), ints and floats have that number, strings have a boolean only if their lowercase is a configured true/false value (true wins), and a date iff some configured format parses them.", "quantifier": "all scalars, all options", "why_tests_cant": "All values and options.", "anchors": ["splitgill/indexing/parser.py:parse_value"]}
{"id": "C50", "title": "term queries find indexed values", "statement": "For any scalar stored in a field, term_query(field, value) matches the document.", "quantifier": "all values and options", "why_tests_cant": "All values, including long strings, dates and time zones.", "anchors": ["splitgill/search.py:term_query", "splitgill/search.py:infer_parsed_type", "splitgill/indexing/parser.py:parse_value", "splitgill/utils.py:to_timestamp"]}
{"id": "C51", "title": "index specific version filter", "statement": "index_specific_version_filter(m) matches a document of an index i in m exactly when the document's version range contains m[i]. Documents of other indices are not matched if m gives different versions; if it gives one version, they are matched when their range contains it.", "quantifier": "all maps, all documents", "why_tests_cant": "All groupings of indices by version.", "anchors": ["splitgill/search.py:index_specific_version_filter", "splitgill/search.py:version_query"]}
{"id": "C52", "title": "range query bounds", "statement": "range_query matches a value exactly when it satisfies all the given bounds; it raises ValueError iff none is given; the type is inferred from the first bound given in the order gte, lt, gt, lte; bool is inferred as boolean, never as number.", "quantifier": "all bounds", "why_tests_cant": "All combinations and values.", "anchors": ["splitgill/search.py:range_query", "splitgill/search.py:infer_parsed_type"]}
{"id": "C53", "title": "polygon winding check", "statement": "is_winding_valid accepts a polygon exactly when its exterior ring has positive signed area and no interior ring has positive signed area (shoelace); reversing the exterior ring of an accepted polygon makes it rejected; is_shape_valid accepts exactly the non-empty shapes with all coordinates in range.", "quantifier": "all rings of any length with rational coordinates", "why_tests_cant": "All rings.", "anchors": ["splitgill/indexing/geo.py:is_winding_valid", "splitgill/indexing/geo.py:is_shape_valid"]}
{"id": "C54", "title": "timestamps", "statement": "to_timestamp(dt) of a time zone aware datetime is the floor of its microseconds since the epoch divided by 1000 (non-negative moments).", "quantifier": "all microsecond counts", "why_tests_cant": "Floating point rounding over an enormous domain.", "anchors": ["splitgill/utils.py:to_timestamp"]}
{"id": "C55", "title": "partition", "statement": "partition(it, size) yields non-empty chunks of at most size elements, all but the last exactly size, whose concatenation is the input.", "quantifier": "all iterables and sizes >= 1", "why_tests_cant": "Unbounded inputs.", "anchors": ["splitgill/utils.py:partition"]}
{"id": "C56", "title": "iter_terms enumerates every bucket once", "statement": "iter_terms yields every distinct value of the field exactly once with its document count, for any chunk size, and terminates.", "quantifier": "all document sets, all chunk sizes >= 1", "why_tests_cant": "Paging over unbounded results.", "anchors": ["splitgill/utils.py:iter_terms"]}
{"id": "C57", "title": "data field hierarchy", "statement": "get_data_fields returns each field path once, with count and per type counts being the sums over all terms of that path, ordered by descending count then ascending path; each field's parent is the field whose path is its path without the last component (if that field is a container).", "quantifier": "all term lists", "why_tests_cant": "All sets of paths.", "anchors": ["splitgill/manager.py:SplitgillDatabase.get_data_fields", "splitgill/indexing/fields.py:DataField"]}
{"id": "C58", "title": "bulk op serialisation", "statement": "A serialised delete op is one line of JSON that decodes to exactly the index and document id of the op.", "quantifier": "all record ids and index names", "why_tests_cant": "All strings, including quotes, backslashes and line breaks.", "anchors": ["splitgill/indexing/index.py:DeleteOp.serialise"]}
{"id": "C59", "title": "concurrent ingests do not lose committed versions", "statement": "If two processes ingest into the same database concurrently (with commits in between), no committed version of any record is lost.", "quantifier": "all interleavings of lookups, bulk writes and commits of two processes", "why_tests_cant": "All interleavings.", "anchors": ["splitgill/ingest.py:generate_ops", "splitgill/manager.py:SplitgillDatabase.ingest", "splitgill/manager.py:SplitgillDatabase.commit"]}
{"id": "C60", "title": "index templates", "statement": "For every database name, the latest index gets the latest template and every archive index gets the archive template, also when both patterns match.", "quantifier": "all database names and archive numbers", "why_tests_cant": "All names.", "anchors": ["splitgill/indexing/templates.py:create_templates", "splitgill/indexing/index.py:IndexNames"]}
{"id": "C61", "title": "get_committed_version and has_data", "statement": "get_committed_version() is the greatest committed version of any record or of this database's options, None iff there is none; has_data() iff some record has a committed version.", "quantifier": "all states", "why_tests_cant": "All states.", "anchors": ["splitgill/manager.py:SplitgillDatabase.get_committed_version", "splitgill/manager.py:SplitgillDatabase.has_data"]}
{"id": "C62", "title": "builder ignores missing values", "statement": "with_true_value, with_false_value and with_date_format given None or the empty string, and with_geo_hint given no latitude or longitude field, leave the builder as it was.", "quantifier": "all builder states", "why_tests_cant": "All builder states.", "anchors": ["splitgill/indexing/options.py:ParsingOptionsBuilder.with_true_value", "splitgill/indexing/options.py:ParsingOptionsBuilder.with_false_value", "splitgill/indexing/options.py:ParsingOptionsBuilder.with_date_format", "splitgill/indexing/options.py:ParsingOptionsBuilder.with_geo_hint"]}
{"id": "C63", "title": "parsing always succeeds", "statement": "parse(data, options) returns for all data that was prepared for storage.", "quantifier": "all data, all options", "why_tests_cant": "All nestings and combinations of values and hints.", "anchors": ["splitgill/indexing/parser.py:parse", "splitgill/indexing/parser.py:parse_dict", "splitgill/indexing/geo.py:match_hints"]}
{"id": "C64", "title": "parsing does not depend on the order of sets", "statement": "parse(data, options) gives the same for equal options: it does not depend on the order in which the set of date formats is gone through, which differs from process to process.", "quantifier": "all data, all options, all orders", "why_tests_cant": "The order is random for each process.", "anchors": ["splitgill/indexing/parser.py:parse_value"]}
{"id": "C65", "title": "id queries", "statement": "id_query(id) matches the document of a record exactly when the record has this id.", "quantifier": "all records, ids and options", "why_tests_cant": "All ids, including long ones and ones that differ in case.", "anchors": ["splitgill/search.py:id_query", "splitgill/indexing/parser.py:parse_value", "splitgill/ingest.py:prepare_record_data"]}
{"id": "C66", "title": "exists queries", "statement": "exists_query(field) matches a document exactly when the data has, in this field or inside it, a value other than None and the empty string.", "quantifier": "all data, all fields, all options", "why_tests_cant": "All nestings.", "anchors": ["splitgill/search.py:exists_query", "splitgill/indexing/parser.py:parse"]}
{"id": "C67", "title": "only valid places are indexed", "statement": "Every geo shape and geo point in parsed data is a non-empty point, line or polygon on the map. GeoJSON is taken exactly if it is such a shape that follows the right-hand rule, WKT exactly if it is such a shape, and a hint matches exactly if its longitude and latitude are a point on the map; its shape is a circle exactly if the radius is a number above 0 and the circle is on the map and counterclockwise.", "quantifier": "all data, all options", "why_tests_cant": "All nestings, shapes and combinations of hints.", "anchors": ["splitgill/indexing/parser.py:parse", "splitgill/indexing/geo.py:match_hints", "splitgill/indexing/geo.py:match_geojson", "splitgill/indexing/geo.py:match_wkt", "splitgill/indexing/geo.py:create_polygon_circle"]}
{"id": "C68", "title": "versions keep the types of values", "statement": "Every committed version of a record reads back with exactly the values, with their types, that were ingested for it.", "quantifier": "all histories of ingests, commits and rollbacks, all data", "why_tests_cant": "Types may be confused by any combination of equal values in any two versions.", "anchors": ["splitgill/model.py:MongoRecord.iter", "splitgill/ingest.py:generate_ops", "splitgill/diffing.py:diff", "splitgill/diffing.py:patch"]}
{"id": "C69", "title": "parsing does not depend on the order of fields", "statement": "parse(data, options) gives the same, up to the order of fields, and the same lists of types for data that differs only in the order of fields. (The order may change when data is patched.)", "quantifier": "all data, all orders, all options", "why_tests_cant": "All nestings and orders.", "anchors": ["splitgill/indexing/parser.py:parse", "splitgill/indexing/parser.py:parse_dict"]}
{"id": "C70", "title": "what was ingested can be searched for and rebuilt", "statement": "After any calls of ingest, commit, update_options and rollbacks, and syncs, a search at version v finds for each record that exists at v (according to the records given to the calls and the versions they returned) exactly one document, and rebuild_data of its data gives the record's data as of v; for other records it finds nothing.", "quantifier": "all sequences of calls and syncs, all records, versions, parsing options and parsers of texts", "why_tests_cant": "The whole way of the data: any history, any nesting, any options.", "anchors": ["splitgill/manager.py:SplitgillDatabase.sync", "splitgill/manager.py:SplitgillDatabase.search", "splitgill/indexing/parser.py:parse", "splitgill/search.py:rebuild_data", "splitgill/indexing/index.py:generate_index_ops"]}
{"id": "C71", "title": "calls do not raise and return their time or nothing", "statement": "ingest, commit, update_options, rollback_options and rollback_records do not raise, whatever was done before, and the version they return, if any, is the time of the call.", "quantifier": "all sequences of calls with increasing times, all records", "why_tests_cant": "All states that can be reached.", "anchors": ["splitgill/manager.py:SplitgillDatabase.ingest", "splitgill/manager.py:SplitgillDatabase.commit", "splitgill/manager.py:SplitgillDatabase.update_options"]}
{"id": "C72", "title": "timestamps keep the order of moments", "statement": "Of two time zone aware datetimes the later one never has the smaller timestamp, and datetimes in different milliseconds have different timestamps, in order.", "quantifier": "all pairs of moments", "why_tests_cant": "Floating point rounding over an enormous domain.", "anchors": ["splitgill/utils.py:to_timestamp", "splitgill/utils.py:parse_to_timestamp"]}
{"id": "C73", "title": "parsing does not depend on what was parsed before", "statement": "parse(data, options) gives what it gives in a new process, whatever data was parsed before with whatever options, and whatever has been dropped from caches since.", "quantifier": "all sequences of calls of parse in one process, all data and options, all sizes of the cache", "why_tests_cant": "The state of the cache depends on everything that was parsed before.", "anchors": ["splitgill/indexing/parser.py:parse_value", "splitgill/indexing/parser.py:parse", "splitgill/indexing/parser.py:parse_dict", "splitgill/indexing/parser.py:parse_list", "splitgill/indexing/geo.py:create_polygon_circle"]}
{"id": "C74", "title": "a sync that others disturb does not lose anything", "statement": "If others ingest, commit or roll back while sync() runs, then once it and a later, undisturbed sync() have returned, the indices hold exactly the committed versions of all records.", "quantifier": "all interleavings of the reads of a sync with the writes of others, all databases, any syncs before", "why_tests_cant": "All interleavings of reads with writes.", "anchors": ["splitgill/manager.py:SplitgillDatabase.sync", "splitgill/manager.py:SplitgillDatabase.iter_records", "splitgill/indexing/index.py:generate_index_ops"]}
{"id": "C75", "title": "calls that are stopped leave records before or after", "statement": "Whatever calls are stopped at whatever point (the process dies, MongoDB cannot be reached) and whatever is done afterwards: every record has a history as if each stopped call had been done or not done for it; committed versions stay as they are; later calls return, or raise AlreadyLocked, the latter only if a process died in a commit and the lock has not been released since.", "quantifier": "all sequences of calls, stopped calls and releases of the lock, all stopping points, all records", "why_tests_cant": "All crash points in all histories.", "anchors": ["splitgill/manager.py:SplitgillDatabase.ingest", "splitgill/manager.py:SplitgillDatabase.commit", "splitgill/manager.py:SplitgillDatabase.rollback_records", "splitgill/manager.py:SplitgillDatabase.update_options", "splitgill/locking.py:LockManager"]}
{"id": "C76", "title": "searches are right after calls that were stopped", "statement": "After any calls, stopped calls, releases of the lock and syncs, a sync succeeds once something is committed, and searches at version v find exactly the records that exist at v, with their data as of v, for histories that the calls can have given; releasing the lock and committing again makes a database whole.", "quantifier": "all sequences of calls, stopped calls, releases and syncs, all stopping points, all records, versions and options", "why_tests_cant": "All crash points in all histories.", "anchors": ["splitgill/manager.py:SplitgillDatabase.sync", "splitgill/manager.py:SplitgillDatabase.search", "splitgill/manager.py:SplitgillDatabase.commit", "splitgill/indexing/index.py:RecordVersions.build"]}
{"id": "C77", "title": "queries find the records whose data meets them", "statement": "After calls and syncs, search(v) filtered with a term query, a range query, an exists query or an id query finds each record exactly once whose data as of version v, read with the parsing options as of v, has in the field what is asked for, and no other record.", "quantifier": "all sequences of calls and syncs, all records, versions, options, fields, values and bounds", "why_tests_cant": "It joins what was ingested with what each query finds, for all data and queries.", "anchors": ["splitgill/manager.py:SplitgillDatabase.search", "splitgill/search.py:term_query", "splitgill/search.py:range_query", "splitgill/search.py:exists_query", "splitgill/search.py:id_query", "splitgill/indexing/parser.py:parse"]}
{"id": "C78", "title": "fields are counted over the records that are found", "statement": "After calls and syncs, get_data_fields(version, query) and get_parsed_fields(version, query) list exactly the fields and types that occur in the data as of the version of the records that the search finds, each with the number of these records.", "quantifier": "all sequences of calls and syncs, all records, versions, options and queries", "why_tests_cant": "It joins what was ingested with aggregations over it, for all data.", "anchors": ["splitgill/manager.py:SplitgillDatabase.get_data_fields", "splitgill/manager.py:SplitgillDatabase.get_parsed_fields", "splitgill/indexing/fields.py:DataField", "splitgill/indexing/fields.py:ParsedField"]}
{"id": "C79", "title": "the history of the options", "statement": "After any sequence of calls, get_options() returns exactly the options that calls have committed, each with the version the commit returned; options given to update_options replace the uncommitted ones unless they equal the newest committed ones, rollback_options drops the uncommitted ones, and a commit of a database without options gives it the default ones. Committed options never change. These options are the ones that sync parses the data with.", "quantifier": "all sequences of calls, also with calls stopped half way, all options", "why_tests_cant": "It is about the state after every history of calls.", "anchors": ["splitgill/manager.py:SplitgillDatabase.update_options", "splitgill/manager.py:SplitgillDatabase.rollback_options", "splitgill/manager.py:SplitgillDatabase.get_options", "splitgill/manager.py:SplitgillDatabase.commit"]}
{"id": "C80", "title": "versions are listed from what was ingested", "statement": "After calls and syncs, get_versions() lists in ascending order exactly the versions at which some record appears, disappears or is read differently (because its data or the parsing options changed); each was returned by a call, and get_rounded_version(v) is the last of them that is not after v.", "quantifier": "all sequences of calls and syncs, all records, options and versions", "why_tests_cant": "It joins the histories of all records and options with aggregations over what sync indexed.", "anchors": ["splitgill/manager.py:SplitgillDatabase.get_versions", "splitgill/manager.py:SplitgillDatabase.get_rounded_version", "splitgill/manager.py:SplitgillDatabase.get_version_changed_counts", "splitgill/manager.py:SplitgillDatabase.sync"]}
{"id": "C81", "title": "searches do not depend on how writes are scheduled", "statement": "After any number of sync() and resync_arcs() calls that return, whatever the chunk sizes, numbers of workers and buffer sizes, and in whatever order the workers' requests were answered (including retries of requests that timed out without being carried out), the same documents exist, and search, get_versions, get_rounded_version, get_version_changed_counts, get_elasticsearch_version, get_data_fields and get_parsed_fields return the same (search but for the order).", "quantifier": "all parsers, databases, numbers of calls, chunk sizes, worker counts and schedules", "why_tests_cant": "Schedules of several concurrent writes, one after another, where each sync reads what the former wrote; a test sees one schedule.", "anchors": ["splitgill/indexing/syncing.py:write_ops", "splitgill/manager.py:SplitgillDatabase.sync", "splitgill/manager.py:SplitgillDatabase.resync_arcs", "splitgill/manager.py:SplitgillDatabase.search"]}
{"id": "C82", "title": "full text search finds the records with the words", "statement": "search(v).filter(match_query(query, field)) after syncs returns each record once whose data as of v has a word of the query (with operator=\"and\": every word) among the words of the texts of the values in the field, and no other record; without a field, of the texts of all values of the record.", "quantifier": "all parsers, analyzers, queries, fields, data, options, histories and versions", "why_tests_cant": "Texts are indexed per value at any depth and copied into one field for the whole record; what is found depends on the history of the record and its options at the version.", "anchors": ["splitgill/search.py:match_query", "splitgill/indexing/parser.py:parse_value", "splitgill/indexing/templates.py:create_templates", "splitgill/manager.py:SplitgillDatabase.search"]}
{"id": "C83", "title": "has_geo finds the records with places", "statement": "Where the data has a place (a hint of the options finds one at a latitude, or else a value whose text is WKT or a dict below the top that is GeoJSON) its point and shape are indexed at that path, and nowhere else; search(v).filter(has_geo()) after a sync returns each record once whose data as of v has a place, and no other, even if values were replaced by equal ones of another type.", "quantifier": "all parsers and geometry libraries, data, options with hints, histories and versions", "why_tests_cant": "Places come from three sources that can collide at one value, at any depth of dicts and lists, and the answer depends on the history of data and options.", "anchors": ["splitgill/search.py:has_geo", "splitgill/indexing/parser.py:parse_dict", "splitgill/indexing/parser.py:parse_value", "splitgill/indexing/geo.py:match_hints", "splitgill/indexing/geo.py:match_geojson", "splitgill/indexing/geo.py:match_wkt", "splitgill/indexing/templates.py:create_templates", "splitgill/manager.py:SplitgillDatabase.search"]}
{"id": "C84", "title": "concurrent ingests of different records", "statement": "Processes that ingest different records into one database at the same time do not disturb each other, however their lookups and writes interleave: each record ends with exactly the document that the ingests would have left one after another, in any order, and each ingest returns the counts it would have returned alone. If some raise or die, or somebody commits in between, each record is what its own ingest, alone with the commits, would have left.", "quantifier": "any number of processes, all lists of records with disjoint ids, all initial collections, all schedules of their steps, all crash points", "why_tests_cant": "ingest takes no lock and reads long before it writes: which interleavings are harmless cannot be found by running some of them.", "anchors": ["splitgill/manager.py:SplitgillDatabase.ingest", "splitgill/ingest.py:generate_ops", "splitgill/utils.py:partition", "splitgill/manager.py:SplitgillDatabase.commit"]}
{"id": "C85", "title": "datetimes and dates are indexed at their own moment", "statement": "A datetime put in a record is indexed, with the default date formats, as the moment it stands for: with a time zone as that instant, without one as that time in UTC; a date as its midnight in UTC. So it is found by term_query with the same moment in any time zone, and by range_query with bounds around it.", "quantifier": "all datetimes and dates that Python has, with any UTC offset down to microseconds, all places in records, all options that have the default formats", "why_tests_cant": "the datetime is written as a text by one function and read by another, with formats tried in turn and a matcher that backtracks: that no text is read in another way is a claim about all texts.", "anchors": ["splitgill/diffing.py:prepare_data", "splitgill/diffing.py:DATETIME_FORMAT", "splitgill/diffing.py:DATE_FORMAT", "splitgill/diffing.py:NAIVE_DATETIME_FORMAT", "splitgill/utils.py:parse_to_timestamp", "splitgill/utils.py:to_timestamp", "splitgill/indexing/parser.py:parse_value", "splitgill/search.py:term_query", "splitgill/search.py:range_query"]}
{"id": "C86", "title": "what a sync writes is seen when it is complete", "statement": "While sync writes, searches see the indices as they were before; if a request fails they go on seeing that, also after any number of further failed syncs; if sync returns they see everything that it wrote, and the refreshing of the indices is no longer paused. At no time do searches see a part of what is written.", "quantifier": "all operations, chunk sizes, workers, schedules of the workers, failures and timeouts of requests, refreshes that Elasticsearch does by itself or in reply to requests, at any time, and histories of failed syncs", "why_tests_cant": "whether a half written update can be seen depends on when Elasticsearch refreshes each index relative to the requests of the workers; a test sees one timing.", "anchors": ["splitgill/indexing/syncing.py:write_ops", "splitgill/indexing/syncing.py:setup_indices", "splitgill/indexing/syncing.py:refresh", "splitgill/indexing/syncing.py:write_ops_async", "splitgill/manager.py:SplitgillDatabase.sync"]}
{"id": "C87", "title": "several syncs of the same data", "statement": "When several syncs of a database run at the same time, or a sync is repeated because others failed, and none of them sees what the others write, then once one of them has returned the indices are those of a single sync.", "quantifier": "any number of syncs, failing or returning, all contents of the database and the indices, all operations, chunk sizes, schedules and timeouts, all orders in which the operations are carried out", "why_tests_cant": "sync takes no lock: two of them can interleave in any way, and a repeated sync meets any part of what the failed ones wrote.", "anchors": ["splitgill/manager.py:SplitgillDatabase.sync", "splitgill/indexing/index.py:generate_index_ops", "splitgill/indexing/syncing.py:write_ops", "splitgill/manager.py:SplitgillDatabase.get_arc_status"]}
{"id": "C88", "title": "options given while others work", "statement": "When update_options(options) has returned, whatever other processes have done meanwhile, these options were at some moment since the call the newest committed options of the database.", "quantifier": "all contents of the database, all options, any number of processes that commit, ingest, give or roll back options, die or raise, all interleavings of their MongoDB commands, all orders in which update_many and delete_many take documents", "why_tests_cant": "update_options and rollback_options take no lock: what is lost depends on the interleaving of commands of several processes.", "anchors": ["splitgill/manager.py:SplitgillDatabase.update_options", "splitgill/manager.py:SplitgillDatabase.commit", "splitgill/manager.py:SplitgillDatabase.rollback_options", "splitgill/manager.py:SplitgillDatabase.get_options", "splitgill/locking.py:LockManager.lock"]}
{"id": "C89", "title": "what a search at a past version finds stays the same", "statement": "Whatever is ingested, deleted, committed, synced or set as options later, search(v) for a version v from before finds the same records with the same data, types and parsed content as it did before, queries at v find the same records, and get_data_fields(v) and get_parsed_fields(v) list the same fields with the same counts.", "quantifier": "all sequences of calls with syncs between them, all later calls and syncs, all versions before the later calls, all records, all term, range, match, exists and geo queries, all geometry and number libraries that ignore the order of keys", "why_tests_cant": "That the past does not change must hold for every later history; tests look at a few.", "anchors": ["splitgill/manager.py:SplitgillDatabase.sync", "splitgill/manager.py:SplitgillDatabase.search", "splitgill/indexing/index.py:generate_index_ops", "splitgill/indexing/index.py:RecordVersions.build", "splitgill/ingest.py:generate_ops"]}
{"id": "C90", "title": "what happens to other records does not matter", "statement": "What searches and queries at any version find of a record depends on what was ingested for that record and on the options only: if between syncs it is not changed and then deleted, has nothing uncommitted at the syncs, and was not given equal data of different types, then it is found with exactly its data as of each version, whatever happens to other records (also changes followed by deletion, uncommitted data, or data of other types).", "quantifier": "all sequences of calls with syncs between them, all records with these conditions, all versions, all queries, all geometry and number libraries that ignore the order of keys", "why_tests_cant": "Independence of records must hold for every mixture of histories; tests use few records.", "anchors": ["splitgill/manager.py:SplitgillDatabase.sync", "splitgill/manager.py:SplitgillDatabase.search", "splitgill/indexing/index.py:generate_index_ops", "splitgill/indexing/index.py:RecordVersions.build", "splitgill/ingest.py:generate_ops"]}
{"id": "C91", "title": "a lock is taken, described and freed as its users see it", "statement": "With any processes calling any methods of the lock manager in any order: acquire and entering a with block succeed exactly when the last call that took this lock has been followed by a release (or none took it); get_metadata returns exactly the id, time, host and keyword arguments of the call that has the lock, else None, and is_locked says which; failed calls, questions and calls for other locks change nothing. As long as nobody calls release for a lock by hand, at most one process is in a with block for it and the metadata during the block is its own.", "quantifier": "all sequences of calls of all methods by any number of processes, all lock ids and keyword arguments", "why_tests_cant": "Who has a lock depends on the whole history of calls of all processes; tests run a few calls of one process.", "anchors": ["splitgill/locking.py:LockManager.acquire", "splitgill/locking.py:LockManager.release", "splitgill/locking.py:LockManager.is_locked", "splitgill/locking.py:LockManager.get_metadata", "splitgill/locking.py:LockManager.lock"]}
{"id": "C92", "title": "all that deletions between syncs can do to searches", "statement": "Records may be changed and deleted between syncs in any way. Every search at every version and every query still finds everything it should of every record (that has nothing uncommitted at the syncs and was not given equal data of different types), each once; the most that is found besides is one document of a record that is now deleted, which is the one the latest index had at an earlier sync, after which the record was changed and deleted, and not made again before any later sync. What is found of records that exist now is exact at all versions, with the data as of the version.", "quantifier": "all sequences of calls with syncs between them, all such records, all versions, all queries", "why_tests_cant": "Depends on the order of changes, deletions and syncs of each record; tests delete in one order.", "anchors": ["splitgill/manager.py:SplitgillDatabase.sync", "splitgill/manager.py:SplitgillDatabase.search", "splitgill/indexing/index.py:generate_index_ops", "splitgill/indexing/index.py:RecordVersions.build"]}
{"id": "C93", "title": "sync returns", "statement": "After any calls that ingest records, commit and change options, sync() returns. (It does not: a sync raises iff parse raises for some version of some record it looks at with the options in use at that version, and once such a version has been committed every later sync that has not passed it, and every resync, raises whatever is done to the record or the options. If parse returns for everything, the sync returns with the result that all other properties are about.)", "quantifier": "all sequences of calls and syncs, all data, options and versions, all places where libraries raise", "why_tests_cant": "Depends on the whole history of each record under every version of the options; tests sync data that can be parsed.", "anchors": ["splitgill/manager.py:SplitgillDatabase.sync", "splitgill/manager.py:SplitgillDatabase.resync_arcs", "splitgill/indexing/index.py:RecordVersions.build", "splitgill/indexing/index.py:generate_index_ops", "splitgill/indexing/parser.py:parse", "splitgill/indexing/parser.py:parse_value", "splitgill/indexing/geo.py:match_geojson", "splitgill/indexing/options.py:ParsingOptionsBuilder.with_float_format"]}
{"id": "C94", "title": "Bulk requests say what the operations say", "statement": "A bulk request that a sync sends to Elasticsearch is read there as the operations that the sync made, in order: the same indices, ids and documents, whatever strings, names and nesting the documents have (NaN and the infinities are null in JSON). (Not in full: the texts of deletions are put together without escaping, so an id with a quote in it changes what is said.) Making a request raises only if an int does not fit into 64 bits.", "quantifier": "all lists of operations, all documents, ids, names and strings", "why_tests_cant": "Tests serialise a few plain documents; characters, nestings and numbers are unbounded.", "anchors": ["splitgill/indexing/index.py:IndexOp.serialise", "splitgill/indexing/index.py:DeleteOp.serialise", "splitgill/indexing/index.py:RecordVersion.create_doc", "splitgill/indexing/syncing.py:worker"]}
{"id": "C95", "title": "What searches give back, through JSON", "statement": "What rebuild_data makes of a hit of a search, which was sent to Elasticsearch and came back as JSON, is the data of the record as of the version searched. (Not in full: NaN and the infinities come back as None; and as in C70.) Term and range queries give the same answers on the JSON as on the data.", "quantifier": "all data, options, calls and syncs, all searches by version", "why_tests_cant": "Must hold for all data and all histories; tests do not index special floats and read them back.", "anchors": ["splitgill/search.py:rebuild_data", "splitgill/indexing/index.py:IndexOp.serialise", "splitgill/manager.py:SplitgillDatabase.search", "splitgill/indexing/parser.py:parse"]}
{"id": "C96", "title": "Sharing does not change what patch gives", "statement": "What patch(base, ops) returns or raises depends only on the values that base and ops have, not on which containers are the same object: a container that is in the base twice, or in the base and in the ops, is changed only at the path of the op. Afterwards all references still have the values they had.", "quantifier": "all object graphs without cycles, all sharing between and inside base and ops, all ops, also wrong ones", "why_tests_cant": "Sharing is a property of every object graph; tests use fresh literals.", "anchors": ["splitgill/diffing.py:patch"]}
{"id": "C97", "title": "A sync that raises shows nothing and is not taken for complete", "statement": "If sync() raises because some data cannot be parsed, searches and all methods that read give what they gave before, however often it is tried; and no later sync() returns, with data missing, before that is mended. sync(resync=True) then makes good what was written.", "quantifier": "all histories of records and options, all failures of parse, all chunk sizes, numbers of workers and schedules, any number of syncs", "why_tests_cant": "The exception comes from a generator that is read while workers write; where it is raised depends on the data, and what has been written by then on the schedule.", "anchors": ["splitgill/indexing/index.py:generate_index_ops", "splitgill/indexing/syncing.py:write_ops_async", "splitgill/manager.py:SplitgillDatabase.sync", "splitgill/manager.py:SplitgillDatabase.resync_arcs", "splitgill/utils.py:partition"]}
{"id": "C98", "title": "Documents of any data fit the fields of the indices", "statement": "A field of an index gets its type from its path alone: the same in all indices, whatever data comes first. So Elasticsearch never rejects a document because of what earlier documents held: data may put a number, a text, a dict, a list, a place or nothing into the same field in different records, versions or indices. Documents made from any ingested data by syncs after any API calls, in any order, are accepted under options that keep keywords to 8191 characters (the default); with any greater keyword length there is a text whose document is rejected, which ends the sync.", "quantifier": "all data with names as ingest makes them, all options with keyword length up to 8191, all histories of calls and syncs, all orders of the documents; places that the geometry library finds are assumed to be accepted, lower case gives no more characters, ids and type summaries are not longer than keywords may be; not modelled: limits on the number of fields and depth", "why_tests_cant": "Whether a document is accepted depends on all documents before it; tests with a few shapes of data cannot tell for all sequences.", "anchors": ["splitgill/indexing/templates.py:_get_template", "splitgill/indexing/parser.py:parse_value", "splitgill/indexing/parser.py:parse_dict", "splitgill/indexing/options.py:ParsingOptionsBuilder.with_keyword_length"]}
{"id": "C99", "title": "Ints beyond 64 bits never get into the store, and what is stored can always be sent to Elasticsearch", "statement": "MongoDB stores ints of up to 64 bits. An ingest with a greater int in a record raises; nothing of that record is stored. Whatever calls returned or raised before, all data and all diffs in the store have only ints that fit, also the data of all older versions rebuilt from the diffs. An ingest that raises leaves the database as one that was stopped at some write (so histories are as for a stopped ingest, and the next ingest, commit or rollback works); an ingest raises only if one of its records has an int that does not fit, and always if that record is new; all other calls never raise because of this, and all return what they would without the limit. A sync of what is stored never raises because an int cannot be written as JSON.", "quantifier": "all sequences of calls on a new database, all records and ints, any number of operations written before the exception; for syncs: dates read from strings and versions fit into 64 bits; not modelled: the limits of MongoDB on the size and the depth of documents", "why_tests_cant": "The exception may come at any operation of any batch, and old values come back by patches of diffs in later calls; tests have only small ints.", "anchors": ["splitgill/manager.py:SplitgillDatabase.ingest", "splitgill/manager.py:SplitgillDatabase.rollback_records", "splitgill/ingest.py:generate_ops", "splitgill/ingest.py:revert_record", "splitgill/diffing.py:diff", "splitgill/diffing.py:patch", "splitgill/model.py:MongoRecord"]}
{"id": "C100", "title": "An index takes all data with up to 443 fields, or 570 if there are no places in it", "statement": "An index has at most 4000 fields, and a document that would give it more is rejected. Documents of any data are accepted by a new index, in any order, if the data has at most 443 different fields in all (counted at any depth, over all versions), whatever values are in them; if nothing in it is a place, 570. So are the documents that syncs write after any calls. These are the bounds: data with n fields in which all types are found needs exactly 10 + 9 n fields of the index (10 + 7 n without places).", "quantifier": "all data and options (keywords of at most 8191 characters), any number of documents in any order; all names of fields, in data as ingest makes it; all sequences of calls before a sync", "why_tests_cant": "The number of fields depends on the union of all fields and types over all documents ever written; tests have a few.", "anchors": ["splitgill/indexing/templates.py:_get_template", "splitgill/indexing/parser.py:parse", "splitgill/indexing/parser.py:parse_value", "splitgill/indexing/index.py:generate_index_ops"]}
{"id": "C101", "title": "The data fields, the parsed fields and exists queries agree", "statement": "For the same documents: each field of get_parsed_fields is the parsed path of a field of get_data_fields; a data field with bools, ints or floats is listed as a parsed field, with text in at least as many documents; what is indexed as a number, date or boolean is also text and keyword; there are as many points as shapes; an exists query on parsed_path(field, type) finds exactly the number of documents that the parsed field counts for the type, and none for fields that are not listed. The elements of a list are in no more documents than the field is a list, other fields in no more than their parent is a dict; only containers have children; root fields are those with no dot in the path. A field is basic exactly if a value that is neither a list nor a dict occurs at its path in one of the documents, and a container exactly if a list or a dict does.", "quantifier": "all indices made by parsing any data with any options, all versions and queries for which fields are listed, all fields and types", "why_tests_cant": "The two listings are made from two different summaries of each document and the queries use neither: they agree for all nestings of lists and dicts, or not.", "anchors": ["splitgill/indexing/fields.py:DataField", "splitgill/indexing/fields.py:ParsedField", "splitgill/indexing/fields.py:parsed_path", "splitgill/manager.py:SplitgillDatabase.get_data_fields", "splitgill/manager.py:SplitgillDatabase.get_parsed_fields"]}
{"id": "C102", "title": "What is ingested comes back from the JSON documents in Elasticsearch", "statement": "After calls of the API and syncs between them, starting without indices: every bulk request is a text that Elasticsearch can read, every document in it is taken by the index it is for (types of fields, length of keywords, limit of fields), the versions and archives that later syncs read back from the indices are right, and search(v) finds for each record that exists at v exactly one JSON document, from whose data rebuild_data gives the data of the record as of v; for other records it finds nothing.", "quantifier": "all sequences of API calls with syncs between them, all sizes of archives and of bulk requests, all versions and records, all behaviours of the libraries for dates, numbers and places", "why_tests_cant": "The texts, the mapping of the indices, the names and wildcards, the archives, the diffs in MongoDB and the parser all have to work together, for all data and all histories.", "anchors": ["splitgill/manager.py:SplitgillDatabase.sync", "splitgill/manager.py:SplitgillDatabase.search", "splitgill/manager.py:SplitgillDatabase.get_arc_status", "splitgill/manager.py:SplitgillDatabase.get_elasticsearch_version", "splitgill/indexing/index.py:IndexOp.serialise", "splitgill/indexing/index.py:DeleteOp.serialise", "splitgill/indexing/index.py:generate_index_ops", "splitgill/indexing/syncing.py:write_ops", "splitgill/search.py:rebuild_data", "splitgill/search.py:version_query", "splitgill/indexing/templates.py:_get_template"]}
{"id": "C103", "title": "Queries, versions and fields after calls that were stopped half way", "statement": "After any calls of the API, some of which were stopped at any of their writes, and syncs between them: there is one history for each record, among those that the calls may have given it (each write happened or not), such that term, range, match, exists and geo queries at any version find exactly the records that have what is asked for according to these histories, get_versions and the counts tell the versions at which they change, and the fields and types that are listed are theirs.", "quantifier": "all sequences of API calls, all points at which each is stopped, all syncs between them, all queries, fields and versions", "why_tests_cant": "A crash can happen between any two writes; what is found afterwards depends on which of them happened, and must still be explained by one history for all queries.", "anchors": ["splitgill/manager.py:SplitgillDatabase.commit", "splitgill/manager.py:SplitgillDatabase.ingest", "splitgill/manager.py:SplitgillDatabase.sync", "splitgill/manager.py:SplitgillDatabase.search", "splitgill/manager.py:SplitgillDatabase.get_versions", "splitgill/manager.py:SplitgillDatabase.get_data_fields", "splitgill/search.py:term_query", "splitgill/search.py:range_query", "splitgill/search.py:match_query", "splitgill/search.py:exists_query", "splitgill/search.py:has_geo"]}
{"id": "C104", "title": "get_current_indices lists the indices in use", "statement": "get_current_indices() returns the names of the indices of this database that exist, each once, in ascending alphabetical order, and no others. After any syncs, resyncs and resync_arcs of several databases these are the latest index, if it was ever written to, and the archives from 0 on without a gap, all of which have documents.", "quantifier": "all contents of Elasticsearch; all sequences of syncs, resyncs and rebuilds of archives of any number of databases", "why_tests_cant": "Which archives exist depends on all documents that were ever written, and which names the wildcard matches on the names of all databases.", "anchors": ["splitgill/manager.py:SplitgillDatabase.get_current_indices", "splitgill/manager.py:SplitgillDatabase.sync", "splitgill/manager.py:SplitgillDatabase.resync_arcs", "splitgill/indexing/index.py:IndexNames"]}
{"id": "C105", "title": "The version of the indices, which Elasticsearch computes with doubles", "statement": "get_elasticsearch_version() returns the newest version of the documents in the indices (of their data or the next one), or None if there are none, although Elasticsearch computes maxima with doubles and the code converts them back; and sync() and search(version), which depend on it, do what they would do with the exact version.", "quantifier": "all contents of the indices; all sequences of syncs, resyncs and rebuilds of archives of any data", "why_tests_cant": "Whether a double holds a version exactly depends on its size, and the result on the largest one of all documents.", "anchors": ["splitgill/manager.py:SplitgillDatabase.get_elasticsearch_version", "splitgill/manager.py:SplitgillDatabase.sync", "splitgill/manager.py:SplitgillDatabase.search", "splitgill/utils.py:to_timestamp"]}
{"id": "C106", "title": "Queries by the entries and types of the indices", "statement": "After syncs, search(version).filter(query) with the queries of term_query, range_query, exists_query, has_geo and match_query finds each record once whose data as of the version has what is asked for, and no other, although Elasticsearch does not look at the data: it looks at the entries that it made of the JSON documents by the types that the dynamic mapping of each index has for the fields, and at the copies of texts and places in the fields for all of them.", "quantifier": "all calls of the API with syncs between them; all data that can be sent and is taken; all queries, fields and versions", "why_tests_cant": "The types of the fields of an index depend on all documents that it has taken before, and whether a query finds a document depends on the types and on all other fields of the document.", "anchors": ["splitgill/indexing/templates.py:DATA_TEMPLATE", "splitgill/search.py:term_query", "splitgill/search.py:range_query", "splitgill/search.py:exists_query", "splitgill/search.py:has_geo", "splitgill/search.py:match_query", "splitgill/manager.py:SplitgillDatabase.search", "splitgill/manager.py:SplitgillDatabase.sync"]}
{"id": "C107", "title": "Versions, counts and fields by the entries of the indices", "statement": "After syncs, get_versions lists in ascending order exactly the versions at which a record changes, get_rounded_version rounds down to one of them, get_version_changed_counts counts the changes, and get_data_fields and get_parsed_fields, with a query of the API or none, list the fields and types of the records that the search finds and count these records, although Elasticsearch aggregates only the entries that it made of the JSON documents by the types of each index.", "quantifier": "all calls of the API with syncs between them; all data that can be sent and is taken; all versions, queries and record ids", "why_tests_cant": "What is aggregated depends on all documents of all indices and on the types that the indices have for the fields, and pages of an aggregation have a limited size.", "anchors": ["splitgill/manager.py:SplitgillDatabase.get_versions", "splitgill/manager.py:SplitgillDatabase.get_rounded_version", "splitgill/manager.py:SplitgillDatabase.get_version_changed_counts", "splitgill/manager.py:SplitgillDatabase.get_data_fields", "splitgill/manager.py:SplitgillDatabase.get_parsed_fields", "splitgill/indexing/templates.py:DATA_TEMPLATE", "splitgill/manager.py:SplitgillDatabase.sync"]}
{"id": "C108", "title": "Which texts are indexed as dates", "statement": "A text is indexed as a date if and only if it is a text of one of the date formats of the options for a datetime that exists, and then at the moment of this datetime (UTC if it has no offset); a date format of the options never makes the parsing of a record fail.", "quantifier": "all texts of ASCII characters; all lists of date formats with the directives %Y %m %d %H %M %S %f %z and literal characters, in any order", "why_tests_cant": "There are infinitely many texts and formats; strptime backtracks, takes one or two digits for most numbers and has several forms of offsets, and which format is tried first depends on the order of a set.", "anchors": ["splitgill/indexing/parser.py:parse_value", "splitgill/utils.py:parse_to_timestamp", "splitgill/indexing/options.py:ParsingOptionsBuilder.with_date_format"]}
{"id": "C109", "title": "Calls about options wait for nobody and leave no lock behind", "statement": "However processes call update_options, commit and rollback_options at the same time, at most one is between taking and giving back the lock of a database; each call ends without help of the other processes after a bounded number of MongoDB commands, and then its lock is free again, also if a command raises.", "quantifier": "all numbers of processes, schedules, exceptions and crashes; all points of all calls", "why_tests_cant": "There are infinitely many interleavings, and a call can stand at any command when the others stop.", "anchors": ["splitgill/manager.py:SplitgillDatabase.update_options", "splitgill/manager.py:SplitgillDatabase.commit", "splitgill/manager.py:SplitgillDatabase.rollback_options", "splitgill/locking.py:LockManager.lock", "splitgill/locking.py:LockManager.acquire", "splitgill/locking.py:LockManager.release"]}
{"id": "C110", "title": "Which texts are indexed as numbers", "statement": "A text is indexed as a number if and only if it writes a decimal number: maybe between blanks, digits with or without a point, maybe a sign before and an exponent after; then as the double nearest to this number, and the record is found by a term query for it. The text of an int writes this int. Booleans, infinities, hexadecimal numbers, digits with underscores and the texts of the default date formats are not indexed as numbers.", "quantifier": "all texts of printable ASCII characters that write no number or one within the normal doubles; all parsing options; all ints; all records", "why_tests_cant": "There are infinitely many texts, with points, signs, exponents and blanks in all places; a text can look like a date and like a number.", "anchors": ["splitgill/indexing/parser.py:parse_value"]}
{"id": "C111", "title": "The texts of floats", "statement": "With the float format {0:.Pg}, of which the default is the one with P = 15, a float is indexed with the text of the decimal with P digits that is nearest to it, without needless zeros; a float that is an int with at most P digits is indexed as this int is; a float made from a decimal with at most 15 digits has the text of this decimal if P is not smaller than the number of its digits and at most 15; with P of 17 or more the text tells which float it was; two floats have the same text if and only if they are rounded to the same decimal, and then a term query for it finds both.", "quantifier": "all finite floats; all P; all ints with at most P digits; all decimals with at most 15 digits; all records and paths", "why_tests_cant": "There are 2^64 floats, and carries, ties, exponents near the limits of the plain form and the digits lost between base 2 and base 10 show only for few of them.", "anchors": ["splitgill/indexing/parser.py:parse_value", "splitgill/indexing/options.py:ParsingOptionsBuilder.with_float_format"]}
{"id": "C112", "title": "Which values hints take as coordinates", "statement": "A geo hint finds a place exactly if the longitude and the latitude are numbers, or texts of numbers, between -180 and 180 and between -90 and 90, also as ints, floats and, but not beside a text, booleans; the latitude is then indexed as a point with these coordinates, the longitude first, and has_geo finds the record; the shape is a circle only if the radius is a positive number or the text of one; otherwise the latitude is no place unless it is WKT. Booleans and the numbers they are equal to are not places alike, and a record may lose a place it had in an old version by this.", "quantifier": "all scalar values of the fields of hints, of texts those with printable characters; all records, paths and options; all geometry libraries that read numbers as described", "why_tests_cant": "Texts of numbers are infinitely many, and which pairs of kinds of values are coordinates depends on both values.", "anchors": ["splitgill/indexing/geo.py:match_hints", "splitgill/indexing/geo.py:is_shape_valid", "splitgill/indexing/geo.py:to_parsed_dict", "splitgill/indexing/parser.py:parse"]}
{"id": "C113", "title": "Floats are kept by the JSON that is sent", "statement": "A finite float is sent as the shortest decimal that is read as it, the nearest one of these, with at most 17 digits and never as an int; so Elasticsearch reads the float that was given, with the sign of zeros, different floats have different texts, and a number typed with at most 15 digits is sent as it was typed, without an exponent from 0.00001 up to below 10**16.", "quantifier": "all finite doubles and all values with any floats in them; all ranges in which numbers are written without an exponent", "why_tests_cant": "There are 2**64 doubles, and wrong last digits show only for a few of them.", "anchors": ["splitgill/indexing/index.py:IndexOp.serialise"]}
{"id": "C114", "title": "Data can be 17 names deep, and ids 512 bytes long", "statement": "Elasticsearch allows 20 levels of objects in an index. Documents of any data in which no field has more than 17 names (dicts in dicts; lists do not count) are accepted, in any order and by any index with data like it, and so are those that syncs write after any API calls. A value in a field with 18 names or more makes the document rejected, whatever is in the index; so ingest and commit take data that no sync can write. The operations of syncs that are rejected for their id are exactly those on the latest data of records with ids of more than 512 bytes.", "quantifier": "all data, options, orders of documents and indices; all sequences of API calls before a sync; all values at the bound", "why_tests_cant": "Tests have data with a few levels; the bound depends on the levels that the parser adds, and must hold for all data and orders of documents.", "anchors": ["splitgill/indexing/templates.py:_get_template", "splitgill/indexing/parser.py:parse", "splitgill/indexing/index.py:generate_index_ops"]}
{"id": "C115", "title": "Queries for zero find zeros", "statement": "term_query(field, n) finds the records with a number in the field that is equal to n, and range_query those with a number between the bounds, also where the number is zero. For Elasticsearch -0.0 is a number just before 0.0 and a term of its own: term_query(field, 0) and gte=0 do not find -0.0 or texts like \"-0\", lt=0 does; term_query(field, -0.0) finds just these, and range_query(field, gte=-0.0, lte=0) the zeros of both signs. All other numbers are found as in C50, C52 and C77, from API calls to searches if no data that is ingested has a negative zero in it.", "quantifier": "all data, options, fields, numbers and bounds; all sequences of API calls with syncs between them", "why_tests_cant": "The sign of zero is invisible to == in Python, so tests that compare values do not see it; which query finds which zero must hold for all data and bounds.", "anchors": ["splitgill/search.py:term_query", "splitgill/search.py:range_query", "splitgill/indexing/templates.py:_get_template", "splitgill/manager.py:SplitgillDatabase.search"]}
{"id": "C116", "title": "Valid names are all that a database needs", "statement": "SplitgillDatabase asks for a name that is a valid MongoDB collection name and a valid Elasticsearch index name. With every such name the object can be made, and no sync, resync or resync_arcs raises because of the name of an index: the latest index and all archives have names that Elasticsearch takes. Names with capital letters or other characters that are not allowed can be ingested into and committed, but a sync raises.", "quantifier": "all names, all archive numbers, all states of MongoDB and of the indices, all sequences of API calls before a first sync", "why_tests_cant": "The names of the indices are longer than the name of the database and grow with the number of archives; tests use a few short names.", "anchors": ["splitgill/manager.py:SplitgillDatabase.__init__", "splitgill/manager.py:SplitgillClient.get_data_collection", "splitgill/indexing/index.py:IndexNames", "splitgill/indexing/syncing.py:setup_indices", "splitgill/manager.py:SplitgillDatabase.sync", "splitgill/manager.py:SplitgillDatabase.resync_arcs"]}
{"id": "C117", "title": "The winding of polygons is judged right with floats", "statement": "is_winding_valid, computed with floats as the code does it, accepts exactly the polygons that follow the right-hand rule, with the sum of older Pythons and with the compensated sum of Python 3.12 and later; so a GeoJSON polygon is indexed exactly if it is on the map and follows the rule. This holds for all rings whose area is not hidden by rounding: twice the area is more than 6 * n / 2**53 times the sum of |x2 - x1| * |y2 + y1| over the n coordinates. Coordinates that are multiples of 2**-k on the map are judged without any rounding.", "quantifier": "all polygons with any number of rings and coordinates", "why_tests_cant": "Rounding errors depend on all coordinates of a ring and add up with their number; tests use a few simple shapes.", "anchors": ["splitgill/indexing/geo.py:is_winding_valid", "splitgill/indexing/geo.py:match_geojson"]}
{"id": "C118", "title": "Data nested too deep for MongoDB's limit on levels", "statement": "MongoDB refuses documents with more than a fixed number of levels of nesting. If all data that is given has at most that number less five levels, no ingest, commit or rollback is refused, and all is as without the limit. A new record is refused exactly if its data has more levels than the limit less one. A committed record can be deleted exactly if its data has at most the limit less five levels. Nothing beyond the limit is ever stored. A refused call leaves the database as a call that was stopped after some of its writes. A rollback is not refused if all data given could be stored as new records.", "quantifier": "all limits, all sequences of calls with any data, any point at which a bulk write stops", "why_tests_cant": "Tests use a mock or small documents; the levels of the stored diff depend on the data and on what it is changed to.", "anchors": ["splitgill/ingest.py:generate_ops", "splitgill/ingest.py:generate_rollback_ops", "splitgill/manager.py:SplitgillDatabase.ingest", "splitgill/manager.py:SplitgillDatabase.rollback_records", "splitgill/diffing.py:diff", "splitgill/model.py:MongoRecord"]}
{"id": "C119", "title": "Records too large for MongoDB's limit on the size of a document", "statement": "MongoDB refuses documents of more than a fixed number of bytes, and a record is stored with the diffs of all its versions in one document. If each record given is small enough to be stored and committed as a new record, no ingest, commit or rollback is refused. Nothing beyond the limit is ever stored. A record never has more versions than an eighth of the limit. If no document that the calls make without the limit is beyond it, no call is refused and all is as without the limit, and conversely. A commit is refused exactly if there is an uncommitted record that is too large once it has its version; then every commit of the database is refused until that record is rolled back or ingested again. A refused call leaves the database as a call that was stopped half way.", "quantifier": "all limits, all sequences of calls with any data, any point at which a bulk write or a commit stops", "why_tests_cant": "Tests change a record a few times; the limit is met after many changes, and depends on the size of the diffs.", "anchors": ["splitgill/ingest.py:generate_ops", "splitgill/ingest.py:generate_rollback_ops", "splitgill/manager.py:SplitgillDatabase.ingest", "splitgill/manager.py:SplitgillDatabase.commit", "splitgill/manager.py:SplitgillDatabase.rollback_records", "splitgill/model.py:MongoRecord"]}
{"id": "C120", "title": "The version an ingest returns while others ingest and commit", "statement": "Several processes ingest different records into a database and commit, at the same time; any of them can raise or die. When an ingest with its commit has returned the version v, each of its records is stored as it was ingested (or, if it is a delete of a record that was never committed, not at all) and committed at a version not after v, and all its changes become visible at v and not before. No record of an ingest that has returned from its commit is left uncommitted.", "quantifier": "all numbers of processes, all records (no id given to two processes), all earlier histories, all interleavings of the commands of the ingests and commits, all crashes and exceptions, clocks that never go back", "why_tests_cant": "What is returned depends on how the commands of several processes interleave; tests run one process.", "anchors": ["splitgill/manager.py:SplitgillDatabase.ingest", "splitgill/manager.py:SplitgillDatabase.commit", "splitgill/ingest.py:generate_ops", "splitgill/locking.py:LockManager.lock", "splitgill/locking.py:LockManager.acquire", "splitgill/locking.py:LockManager.release", "splitgill/utils.py:partition"]}
{"id": "C121", "title": "A resync repairs the indices although others write", "statement": "Whatever is in the indices of a database, after sync(resync=True) has returned, searches at every version that was committed when it started find what was committed at it, although others ingest and commit while it runs. resync_arcs does the same for the old versions, and does not touch the latest data.", "quantifier": "all histories of calls before and during the resync, all orders in which its cursor sees their effects, all indices that earlier syncs - disturbed, interrupted, or of other data - can have left, all records and versions", "why_tests_cant": "The outcome depends on when the cursor comes to each record; tests have nobody writing during a resync, and undamaged indices.", "anchors": ["splitgill/manager.py:SplitgillDatabase.sync", "splitgill/manager.py:SplitgillDatabase.resync_arcs", "splitgill/manager.py:SplitgillDatabase.iter_records", "splitgill/indexing/index.py:generate_index_ops", "splitgill/search.py:version_query"]}
{"id": "C122", "title": "Histories while several processes ingest and commit", "statement": "However the ingests and commits of several processes interleave, each record has at most one document, all its versions can be read, and every version it shows at some moment it shows with equal data at every later moment. After an ingest with commit has returned a version, a sync and a search at this version show what was ingested.", "quantifier": "all databases left by earlier calls, all numbers of processes and lists of records of theirs (each record in one list), all interleavings of their commands, all clocks that do not go back, all processes that raise or die on the way", "why_tests_cant": "The commands of the processes interleave in unboundedly many ways; unit tests run one ingest at a time.", "anchors": ["splitgill/manager.py:SplitgillDatabase.ingest", "splitgill/manager.py:SplitgillDatabase.commit", "splitgill/ingest.py:generate_ops", "splitgill/model.py:MongoRecord.iter", "splitgill/manager.py:SplitgillDatabase.sync", "splitgill/search.py:version_query"]}
{"id": "C123", "title": "Bulk options bound what is held in memory and sent at once", "statement": "While a sync writes, the index operations that were read and are not yet written are never more than chunk_size times the size of the buffer and the number of workers together; never more requests are open than there are workers; and no request has more operations than chunk_size. The records are not read further ahead than that.", "quantifier": "all streams of operations, all options, all schedules of the workers, all responses, timeouts and errors, every moment", "why_tests_cant": "How far the reading gets ahead depends on the schedule of the tasks and the times of the responses; tests see the final result only.", "anchors": ["splitgill/indexing/syncing.py:BulkOptions", "splitgill/indexing/syncing.py:write_ops_async", "splitgill/indexing/syncing.py:worker", "splitgill/utils.py:partition"]}
{"id": "C124", "title": "An ingest works piece by piece and waits for nobody", "statement": "ingest reads the records it is given in order, asks MongoDB for at most 200 of them at a time and sends at most 200 operations at a time, and keeps no more than three such lists in memory. However other processes ingest and commit meanwhile, it has written all n records after at most 3n + 1 steps of its own, and it does not raise.", "quantifier": "all lists of records of any length, all states of the database (for not raising: all that earlier calls leave), all numbers of other processes and all interleavings of their commands, every moment", "why_tests_cant": "Tests ingest a few records alone; neither the sizes of the lists for long streams nor progress under every interleaving can be observed by them.", "anchors": ["splitgill/manager.py:SplitgillDatabase.ingest", "splitgill/ingest.py:generate_ops", "splitgill/utils.py:partition"]}
{"id": "C125", "title": "Searches never show anything that was not committed", "statement": "Whatever syncs, resyncs and resync_arcs run, at once or one after the other, while records are ingested and committed, and however many of their operations are lost, repeated or carried out in another order, or documents are deleted: every document that search(version) finds belongs to a version not above the one asked for, and holds the data with which its record was committed as of that version, parsed with options that were committed and in use as of that version when they were read. Uncommitted data, data of rolled back or stopped ingests, and deleted records as of a deletion are never shown.", "quantifier": "all sequences of calls and of calls stopped at any point (and all interleavings of the commands of several ingesting processes), all indices that any selection, order and repetition of the operations of any syncs of any moments of it can leave, all versions searched", "why_tests_cant": "Tests run one sync to its end; what partial, repeated and overlapping syncs can leave for every moment at which they read is beyond them.", "anchors": ["splitgill/manager.py:SplitgillDatabase.sync", "splitgill/manager.py:SplitgillDatabase.resync_arcs", "splitgill/manager.py:SplitgillDatabase.search", "splitgill/indexing/index.py:generate_index_ops"]}
{"id": "C126", "title": "Syncs at the same time do not undo each other", "statement": "When two syncs run at the same time and one read the database later than the other, then, however their writes to Elasticsearch interleave, searches find afterwards, at the latest after another sync, what they would find had only the later one run. This fails if writes of the earlier sync come last: they put an old version of a record back into the latest index, and the next sync sees nothing to do. It holds for every record that is not touched between the two reads, and for every record whose document in the latest index is last written by the later sync, in particular if the earlier sync writes first.", "quantifier": "all indices after any syncs, all pairs of database states of which one is later than the other, all interleavings of the operations of the two syncs, all versions searched", "why_tests_cant": "Needs two concurrent syncs and a particular interleaving of their bulk requests; tests run syncs one after the other.", "anchors": ["splitgill/manager.py:SplitgillDatabase.sync", "splitgill/indexing/syncing.py:write_ops", "splitgill/indexing/index.py:generate_index_ops"]}
{"id": "C127", "title": "Records are stored in MongoDB without loss", "statement": "After any calls, the bytes in which a record is stored in MongoDB (BSON) are read back as the same record, with the same data, version and diffs: the types of all values are kept, also that of ints and floats, and zero with a sign, infinities and NaN, and so are the names of fields, of which none has a NUL, and their order. Two different records never have the same bytes, and a document has the size that C119 says.", "quantifier": "all databases, all sequences of calls with times and ints that fit into 64 bits (others are refused, see C99), and lists of less than 2^63 items, all records that are stored afterwards and have less than 2 GiB", "why_tests_cant": "Tests write a few documents; that every nesting, every name, every float and every diff comes back from its bytes needs induction over values.", "anchors": ["splitgill/ingest.py:generate_ops", "splitgill/ingest.py:generate_rollback_ops", "splitgill/model.py:MongoRecord", "splitgill/manager.py:SplitgillDatabase.iter_records", "splitgill/diffing.py:prepare_field_name"]}
{"id": "C128", "title": "A resync repairs the indices", "statement": "After any calls, also ones that were stopped at any of their writes, and whatever is in the indices (archives may be lost, documents may be there twice, be old or wrong), sync(resync=True) succeeds, and afterwards term, range, match, exists and geo queries at every version find the records that have what is asked for, each once, get_versions, get_rounded_version and the counts of changes tell when records change, and get_data_fields and get_parsed_fields list and count what the records found hold. If only the archives are wrong, resync_arcs() is enough.", "quantifier": "all sequences of calls and of calls that are stopped, all contents of the indices, all versions and queries", "why_tests_cant": "Tests resync indices that are already right or were damaged in one way; the statement is about every content of the indices and every history.", "anchors": ["splitgill/manager.py:SplitgillDatabase.sync", "splitgill/manager.py:SplitgillDatabase.resync_arcs", "splitgill/indexing/index.py:generate_index_ops"]}
{"id": "C129", "title": "Searches without a version", "statement": "After a sync that follows any calls, also ones that were stopped at any of their writes (or after several syncs and repairs, under the conditions of C70 and C128), search() without a version, with a term, range, match, exists or geo query, finds each record that has what is asked for in its newest committed data once, and no others: not records that had it before, nor deleted records. get_data_fields() and get_parsed_fields() without a version list the fields of the newest data of the records that the query finds, with the right numbers, and agree with each other and with exists queries. This is for records that have nothing uncommitted and were not given equal values of different types; for the listings, no name below the root starts with # or _.", "quantifier": "all sequences of calls and of calls that are stopped, all syncs between them, all queries", "why_tests_cant": "Tests search at the end of one short history; that old data is never found is about every history and every query.", "anchors": ["splitgill/manager.py:SplitgillDatabase.search", "splitgill/manager.py:SplitgillDatabase.get_data_fields", "splitgill/manager.py:SplitgillDatabase.get_parsed_fields", "splitgill/manager.py:SearchVersion"]}
{"id": "C130", "title": "Searches of all versions", "statement": "After a sync that follows any calls, also ones that were stopped at any of their writes (or after several syncs and repairs, under the conditions of C70 and C128), search(SearchVersion.all) with a term, range, match, exists or geo query finds a document of a record whose field versions covers version v just if the record had what is asked for at v. So a record is found just if it had that at some version. Every document found is found by searches at the versions that its field versions covers and at no others; no two documents of a record are for the same version, and none is found twice. This is for records that have nothing uncommitted and were not given equal values of different types.", "quantifier": "all sequences of calls and of calls that are stopped, all syncs between them, all queries, records and versions", "why_tests_cant": "Tests search all versions of a few documents; the statement is about every history, and every version between and beyond those committed.", "anchors": ["splitgill/manager.py:SplitgillDatabase.search", "splitgill/manager.py:SearchVersion", "splitgill/search.py:version_query"]}
{"id": "C131", "title": "Other records do not affect what is found of a record", "statement": "Take two databases with the same committed parsing options, and a record that has the same history in both. Whatever other records there are in each, in whatever calls they came, whenever the syncs were and however large their parts: searches find the same of this record in both. At every version they find nothing in both or one document in both, with the same data, and term, range, match, exists and geo queries find the record in both or in neither, at every version, without a version and on all versions. This is for records that have nothing uncommitted at the syncs, were not changed and then deleted between two syncs, and were not given equal values of different types; nothing is asked of the other records.", "quantifier": "all pairs of sequences of calls with syncs between them, all such records, all versions, all queries", "why_tests_cant": "Tests look at a record in one database with a few others; the statement compares every two databases that agree on one record.", "anchors": ["splitgill/manager.py:SplitgillDatabase.search", "splitgill/manager.py:SplitgillDatabase.sync", "splitgill/manager.py:SplitgillDatabase.ingest"]}
{"id": "C132", "title": "Documents are right about the version they carry", "statement": "Whatever was ingested, committed, deleted or left uncommitted, and whenever the syncs ran: each document that any search finds carries a version that a call returned, and the record had the data of the document as of that version (as far as data can be rebuilt, C47; 1 and True are equal here); if the document has a next version, that is later and a call returned it. So nothing is found that was not ingested and committed.", "quantifier": "all sequences of calls with syncs between them or while they are made, all records, all searches, all documents found", "why_tests_cant": "Tests compare what a few searches find with what they expect; the statement is about every document of every search after every history, also where searches find too much (C31).", "anchors": ["splitgill/manager.py:SplitgillDatabase.search", "splitgill/manager.py:SplitgillDatabase.sync", "splitgill/manager.py:SplitgillDatabase.ingest", "splitgill/manager.py:SplitgillDatabase.commit"]}
