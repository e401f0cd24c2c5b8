{
 "claims": [
  {
   "property": "C01",
   "status": "proved",
   "theorems": [
    "Splitgill.Props.C01_patch_diff"
   ],
   "note": "All pairs of dicts; equality is Python's == with NaN equal to itself."
  },
  {
   "property": "C02",
   "status": "proved",
   "theorems": [
    "Splitgill.Props.C02_diff_empty_iff",
    "Splitgill.Props.C02_ops_nontrivial_distinct"
   ],
   "note": ""
  },
  {
   "property": "C03",
   "status": "partial",
   "theorems": [
    "Splitgill.Props.C03_refuted",
    "Splitgill.Props.C03_type_exact_partial"
   ],
   "note": "The code violates the full statement (1 == True); exact iff no place holds two different scalars that compare equal."
  },
  {
   "property": "C04",
   "status": "proved",
   "theorems": [
    "Splitgill.Props.C04_patch_inputs_unchanged"
   ],
   "note": "Heap model with arbitrary sharing."
  },
  {
   "property": "C13",
   "status": "proved",
   "theorems": [
    "Splitgill.Props.C13_prepared_id"
   ],
   "note": "For every unicode classification meeting the stated laws."
  },
  {
   "property": "C16",
   "status": "proved",
   "theorems": [
    "Splitgill.Props.C16_names_clean"
   ],
   "note": "For every unicode classification meeting the stated laws."
  },
  {
   "property": "C17",
   "status": "partial",
   "theorems": [
    "Splitgill.Props.C17_refuted",
    "Splitgill.Props.C17_texts_clean_partial"
   ],
   "note": "The code violates the full statement: the text str(value) of a value of another type is stored uncleaned. Proved when those texts are clean."
  },
  {
   "property": "C18",
   "status": "partial",
   "theorems": [
    "Splitgill.Props.C18_names_idempotent",
    "Splitgill.Props.C18_refuted",
    "Splitgill.Props.C18_values_idempotent_partial"
   ],
   "note": "Field names: proved. Values: refuted through the str() fallback, proved otherwise."
  },
  {
   "property": "C19",
   "status": "partial",
   "theorems": [
    "Splitgill.Props.C19_refuted",
    "Splitgill.Props.C19_entries_partial"
   ],
   "note": "The code violates the full statement when two names clean to the same name; proved (as an equivalence) otherwise."
  },
  {
   "property": "C29",
   "status": "partial",
   "theorems": [
    "Splitgill.Props.C29_refuted",
    "Splitgill.Props.C29_effective_partial",
    "Splitgill.Props.C29_documents_partial"
   ],
   "note": "Refuted: options committed before a record was created (other than the oldest) are ignored, the oldest ones are used instead. Proved for all records with the options the code uses, and in full when no options were changed before the record was created."
  },
  {
   "property": "C30",
   "status": "proved",
   "theorems": [
    "Splitgill.Props.C30_first_sync",
    "Splitgill.Props.C30_api"
   ],
   "note": ""
  },
  {
   "property": "C31",
   "status": "partial",
   "theorems": [
    "Splitgill.Props.C31_refuted",
    "Splitgill.Props.C31_incremental_partial",
    "Splitgill.Props.C31_api_partial",
    "Splitgill.Props.C31_parsed_partial",
    "Splitgill.Props.C31_parsed_refuted"
   ],
   "note": "Refuted: a record changed and then deleted between two syncs stays in the latest index; and if a value changes to an equal one of another type the archives may hold two documents for one version. Proved for any number of syncs without such a record."
  },
  {
   "property": "C32",
   "status": "partial",
   "theorems": [
    "Splitgill.Props.C32_refuted",
    "Splitgill.Props.C32_resync_partial",
    "Splitgill.Props.C32_existing_partial"
   ],
   "note": "Refuted: documents of records deleted since the last sync stay in the latest index. Proved: what the indices are in all cases, and the full claim when the latest index has only records that exist."
  },
  {
   "property": "C33",
   "status": "proved",
   "theorems": [
    "Splitgill.Props.C33_resync_arcs"
   ],
   "note": ""
  },
  {
   "property": "C34",
   "status": "proved",
   "theorems": [
    "Splitgill.Props.C34_sync_twice"
   ],
   "note": ""
  },
  {
   "property": "C35",
   "status": "partial",
   "theorems": [
    "Splitgill.Props.C35_refuted",
    "Splitgill.Props.C35_pending_partial",
    "Splitgill.Props.C35_api_partial",
    "Splitgill.Props.C35_parsed_partial",
    "Splitgill.Props.C35_stopped_partial"
   ],
   "note": "Refuted: committed versions of a record with an uncommitted change at a sync can stay missing. Proved when such records have no committed version since the sync before."
  },
  {
   "property": "C40",
   "status": "proved",
   "theorems": [
    "Splitgill.Props.C40_archives",
    "Splitgill.Props.C40_operations"
   ],
   "note": ""
  },
  {
   "property": "C55",
   "status": "proved",
   "theorems": [
    "Splitgill.Props.C55_partition"
   ],
   "note": ""
  },
  {
   "property": "C05",
   "status": "proved",
   "theorems": [
    "Splitgill.Props.C05_history",
    "Splitgill.Props.C05_api"
   ],
   "note": "All event sequences including crashes; strictly increasing commit times; streams whose ids do not span lookup batches (C14)."
  },
  {
   "property": "C06",
   "status": "proved",
   "theorems": [
    "Splitgill.Props.C06_get_versions",
    "Splitgill.Props.C06_flags"
   ],
   "note": ""
  },
  {
   "property": "C07",
   "status": "proved",
   "theorems": [
    "Splitgill.Props.C07_committed_immutable"
   ],
   "note": "Including crashes after any write of any later operation."
  },
  {
   "property": "C08",
   "status": "proved",
   "theorems": [
    "Splitgill.Props.C08_rollback"
   ],
   "note": "Including crashes of the ingest and of the rollback itself."
  },
  {
   "property": "C09",
   "status": "partial",
   "theorems": [
    "Splitgill.Props.C09_refuted",
    "Splitgill.Props.C09_later_versions_partial"
   ],
   "note": "The code does not compare the clock with earlier versions: two commits in one millisecond refute the full statement. Proved for a strictly increasing clock."
  },
  {
   "property": "C10",
   "status": "partial",
   "theorems": [
    "Splitgill.Props.C10_refuted",
    "Splitgill.Props.C10_reingest_partial"
   ],
   "note": "Refuted by NaN; proved for data equal in Python's sense on committed and on never committed records."
  },
  {
   "property": "C11",
   "status": "proved",
   "theorems": [
    "Splitgill.Props.C11_ingest_one"
   ],
   "note": ""
  },
  {
   "property": "C12",
   "status": "proved",
   "theorems": [
    "Splitgill.Props.C12_modified_field"
   ],
   "note": ""
  },
  {
   "property": "C14",
   "status": "partial",
   "theorems": [
    "Splitgill.Props.C14_refuted",
    "Splitgill.Props.C14_last_wins_partial",
    "Splitgill.Props.C14_settled_partial",
    "Splitgill.Props.C14_when_settled",
    "Splitgill.Props.C14_twice"
   ],
   "note": "Refuted: an id in two lookup batches is inserted twice. Proved when no id spans two batches (C14_last_wins_partial), and also for ids in several batches when no operation for a record of a batch waits at its lookup (C14_settled_partial), which is so when every batch but the last makes 200 operations (C14_when_settled). C14_twice: a new id in two batches of which the first repeats an id is always inserted twice."
  },
  {
   "property": "C15",
   "status": "proved",
   "theorems": [
    "Splitgill.Props.C15_counts"
   ],
   "note": ""
  },
  {
   "property": "C27",
   "status": "proved",
   "theorems": [
    "Splitgill.Props.C27_from_doc_to_doc"
   ],
   "note": ""
  },
  {
   "property": "C28",
   "status": "proved",
   "theorems": [
    "Splitgill.Props.C28_builder",
    "Splitgill.Props.C28_keyword_rejected",
    "Splitgill.Props.C28_based_on"
   ],
   "note": ""
  },
  {
   "property": "C62",
   "status": "partial",
   "theorems": [
    "Splitgill.Props.C62_refuted",
    "Splitgill.Props.C62_ignored_partial"
   ],
   "note": "Refuted: an empty true or false value is added (the docstrings say nothing happens). Proved for the other cases."
  },
  {
   "property": "C20",
   "status": "proved",
   "theorems": [
    "Splitgill.Props.C20_mutex",
    "Splitgill.Props.C20_loser_changes_nothing",
    "Splitgill.Props.C20_alone"
   ],
   "note": "C20_alone ties the command-by-command commit to the whole one."
  },
  {
   "property": "C21",
   "status": "proved",
   "theorems": [
    "Splitgill.Props.C21_context_manager",
    "Splitgill.Props.C21_crash_keeps_lock",
    "Splitgill.Props.C21_release_frees",
    "Splitgill.Props.C21_other_locks"
   ],
   "note": ""
  },
  {
   "property": "C22",
   "status": "proved",
   "theorems": [
    "Splitgill.Props.C22_commit"
   ],
   "note": "The effect on other databases is C24."
  },
  {
   "property": "C23",
   "status": "proved",
   "theorems": [
    "Splitgill.Props.C23_recommit",
    "Splitgill.Props.C23_histories"
   ],
   "note": ""
  },
  {
   "property": "C24",
   "status": "partial",
   "theorems": [
    "Splitgill.Props.C24_refuted",
    "Splitgill.Props.C24_commit_refuted",
    "Splitgill.Props.C24_isolation_partial"
   ],
   "note": "Refuted: the options queries have no name filter. Proved for data, locks, committed options, and for everything when the other database has no uncommitted options."
  },
  {
   "property": "C25",
   "status": "partial",
   "theorems": [
    "Splitgill.Props.C25_refuted",
    "Splitgill.Props.C25_options_partial"
   ],
   "note": "Refuted with two databases (has_options has no name filter). Proved when the client uses one database."
  },
  {
   "property": "C26",
   "status": "partial",
   "theorems": [
    "Splitgill.Props.C26_refuted",
    "Splitgill.Props.C26_update_partial"
   ],
   "note": "Refuted: hints compare by latitude field only. Proved when hints with the same latitude field agree."
  },
  {
   "property": "C61",
   "status": "partial",
   "theorems": [
    "Splitgill.Props.C61_refuted",
    "Splitgill.Props.C61_version_partial",
    "Splitgill.Props.C61_sound_partial"
   ],
   "note": "Refuted when all records have uncommitted changes. Proved without uncommitted data."
  },
  {
   "property": "C36",
   "status": "partial",
   "theorems": [
    "Splitgill.Props.C36_refuted",
    "Splitgill.Props.C36_search_partial",
    "Splitgill.Props.C36_options_partial",
    "Splitgill.Props.C36_latest_partial",
    "Splitgill.Props.C36_api_partial",
    "Splitgill.Props.C36_parsed_partial"
   ],
   "note": "Refuted: a record made after several versions of the options is parsed with the oldest ones. Proved for every history with the options the code uses, and in full for records before which the options were not changed more than once."
  },
  {
   "property": "C37",
   "status": "proved",
   "theorems": [
    "Splitgill.Props.C37_latest_shortcut"
   ],
   "note": ""
  },
  {
   "property": "C38",
   "status": "proved",
   "theorems": [
    "Splitgill.Props.C38_versions",
    "Splitgill.Props.C38_always",
    "Splitgill.Props.C38_always_steps",
    "Splitgill.Props.C38_always_race"
   ],
   "note": "C38_always, C38_always_steps: after any calls, also if they are stopped half way, and syncs, whatever the records, searches at a version and at the rounded version find the same. C38_always_race: also if others write and commit while the syncs run."
  },
  {
   "property": "C39",
   "status": "partial",
   "theorems": [
    "Splitgill.Props.C39_refuted",
    "Splitgill.Props.C39_counts_partial",
    "Splitgill.Props.C39_first_sync_partial",
    "Splitgill.Props.C39_syncs_partial"
   ],
   "note": "Refuted: counts of replaced documents overwrite those of new ones. Proved when all or none of the changed records are new; and what the count is otherwise."
  },
  {
   "property": "C51",
   "status": "proved",
   "theorems": [
    "Splitgill.Props.C51_index_filter",
    "Splitgill.Props.C51_other_indices"
   ],
   "note": ""
  },
  {
   "property": "C56",
   "status": "proved",
   "theorems": [
    "Splitgill.Props.C56_iter_terms",
    "Splitgill.Props.C56_order_refuted"
   ],
   "note": "Also refuted: the order that the docstring promises."
  },
  {
   "property": "C41",
   "status": "proved",
   "theorems": [
    "Splitgill.Props.C41_every_op_once"
   ],
   "note": "For every stream, chunk size >= 1, number of workers, buffer size and schedule of the tasks, also when some requests time out and are retried."
  },
  {
   "property": "C42",
   "status": "proved",
   "theorems": [
    "Splitgill.Props.C42_schedules"
   ],
   "note": "Relative to the ops written in order (sync). Compared as multisets per index. Needs distinct record ids, which MongoDB guarantees."
  },
  {
   "property": "C43",
   "status": "partial",
   "theorems": [
    "Splitgill.Props.C43_errors_partial",
    "Splitgill.Props.C43_ends_partial",
    "Splitgill.Props.C43_stuck_partial",
    "Splitgill.Props.C43_reasons",
    "Splitgill.Props.C43_refuted"
   ],
   "note": "Errors are never swallowed, and there are no false alarms (full). \"write_ops always finishes\" is false: a failure in the last chunk makes join() wait forever (C43_refuted). Proved: runs are bounded, and without failures they end."
  },
  {
   "property": "C44",
   "status": "partial",
   "theorems": [
    "Splitgill.Props.C44_attempts_partial",
    "Splitgill.Props.C44_not_applied_partial",
    "Splitgill.Props.C44_latest_partial",
    "Splitgill.Props.C44_sync_ops",
    "Splitgill.Props.C44_refuted"
   ],
   "note": "At most four requests per chunk (full). Archive documents are duplicated when a timed out request had been carried out (C44_refuted); the latest index never is wrong."
  },
  {
   "property": "C45",
   "status": "partial",
   "theorems": [
    "Splitgill.Props.C45_first_resync_partial",
    "Splitgill.Props.C45_resync_partial",
    "Splitgill.Props.C45_invisible_partial",
    "Splitgill.Props.C45_refuted_visible",
    "Splitgill.Props.C45_refuted_invisible"
   ],
   "note": "Repeating sync() after a failure loses or duplicates documents; resync=True repairs it."
  },
  {
   "property": "C46",
   "status": "partial",
   "theorems": [
    "Splitgill.Props.C46_search_partial",
    "Splitgill.Props.C46_sync_partial",
    "Splitgill.Props.C46_resync_arcs_partial",
    "Splitgill.Props.C46_writes",
    "Splitgill.Props.C46_names",
    "Splitgill.Props.C46_wildcard",
    "Splitgill.Props.C46_arc_wildcard",
    "Splitgill.Props.C46_refuted",
    "Splitgill.Props.C46_refuted_search",
    "Splitgill.Props.C46_refuted_resync",
    "Splitgill.Props.C46_refuted_arcs"
   ],
   "note": "False for names such as foo and foo-bar (C46_refuted...). Exactly which indices the wildcards match is proved; for databases whose name is no dashed prefix of another (and is not another one followed by -arc) isolation is proved in full."
  },
  {
   "property": "C58",
   "status": "partial",
   "theorems": [
    "Splitgill.Props.C58_partial",
    "Splitgill.Props.C58_refuted",
    "Splitgill.Props.C58_refuted_injection"
   ],
   "note": "Ids are not escaped: an id with quotes and a newline makes two delete ops (C58_refuted_injection). Proved: it holds exactly for texts without quotes, backslashes and control characters."
  },
  {
   "property": "C60",
   "status": "proved",
   "theorems": [
    "Splitgill.Props.C60_templates"
   ],
   "note": ""
  },
  {
   "property": "C47",
   "status": "partial",
   "theorems": [
    "Splitgill.Props.C47_rebuild_partial",
    "Splitgill.Props.C47_rebuild_iff_partial",
    "Splitgill.Props.C47_prepared_partial",
    "Splitgill.Props.C47_refuted"
   ],
   "note": "Empty dicts and lists are lost, and \"\" and empty ones in lists become None (C47_refuted). Proved: exactly what is rebuilt, and that the data is rebuilt iff it has none of these."
  },
  {
   "property": "C48",
   "status": "partial",
   "theorems": [
    "Splitgill.Props.C48_data_types_partial",
    "Splitgill.Props.C48_parsed_types_partial",
    "Splitgill.Props.C48_refuted",
    "Splitgill.Props.C48_refuted_parsed"
   ],
   "note": "A path may be listed twice when a nested field name starts with # or is _id (C48_refuted, C48_refuted_parsed). Proved in full without such nested names."
  },
  {
   "property": "C49",
   "status": "proved",
   "theorems": [
    "Splitgill.Props.C49_parsed_values"
   ],
   "note": ""
  },
  {
   "property": "C63",
   "status": "partial",
   "theorems": [
    "Splitgill.Props.C63_parse_total_partial",
    "Splitgill.Props.C63_refuted"
   ],
   "note": "A latitude and longitude in lists of one number raise TypeError (C63_refuted, taking from shapely that Point accepts them). Proved for hints that only match scalars."
  },
  {
   "property": "C64",
   "status": "partial",
   "theorems": [
    "Splitgill.Props.C64_date_order_partial",
    "Splitgill.Props.C64_refuted"
   ],
   "note": "Two formats may read one text differently (C64_refuted). Proved if they do not."
  },
  {
   "property": "C54",
   "status": "partial",
   "theorems": [
    "Splitgill.Props.C54_bounds_partial",
    "Splitgill.Props.C54_all_partial",
    "Splitgill.Props.C54_late_witness",
    "Splitgill.Props.C54_witness",
    "Splitgill.Props.C54_finite",
    "Splitgill.Props.C54_limits",
    "Splitgill.Props.C54_exponent_witness",
    "Splitgill.Props.C54_ranges_partial",
    "Splitgill.Props.C54_now_partial",
    "Splitgill.Props.C54_rounding",
    "Splitgill.Props.C54_before_epoch",
    "Splitgill.Props.C54_date",
    "Splitgill.Props.C54_naive_partial",
    "Splitgill.Props.C54_naive_all_partial",
    "Splitgill.Props.C54_refuted"
   ],
   "note": "Float rounding makes to_timestamp one less than the milliseconds of some datetimes (C54_refuted). Proved: up to 2242 it is exact or one less, and exact between 2004-11-03 and 2038-01-19; up to 9999 at most one off, and exact away from the boundaries of milliseconds; range boundaries are kept. Moments before the epoch mirror those after it. Dates are exact; naive datetimes have the timestamp of the same moment with a time zone (1697 to 2242, but for six days around the epoch), and in all years one that is at most one off."
  },
  {
   "property": "C50",
   "status": "partial",
   "theorems": [
    "Splitgill.Props.C50_values_partial",
    "Splitgill.Props.C50_strings_partial",
    "Splitgill.Props.C50_numbers_partial",
    "Splitgill.Props.C50_booleans_partial",
    "Splitgill.Props.C50_dates_partial",
    "Splitgill.Props.C50_refuted",
    "Splitgill.Props.C50_naive_refuted"
   ],
   "note": "Strings longer than the keyword length are not found (C50_refuted), and naive datetimes are looked for in local time while texts are indexed as UTC (C50_naive_refuted). Proved for all other scalars, with what exactly each kind of term query matches."
  },
  {
   "property": "C52",
   "status": "partial",
   "theorems": [
    "Splitgill.Props.C52_error",
    "Splitgill.Props.C52_type",
    "Splitgill.Props.C52_given_type",
    "Splitgill.Props.C52_strings",
    "Splitgill.Props.C52_booleans",
    "Splitgill.Props.C52_dates",
    "Splitgill.Props.C52_numbers_partial",
    "Splitgill.Props.C52_numbers_rounded_partial",
    "Splitgill.Props.C52_numbers_sides_partial",
    "Splitgill.Props.C52_refuted"
   ],
   "note": "Numbers are compared as doubles, so ints above 2**53 may be missed (C52_refuted). Proved in full for strings, booleans, dates, floats and smaller ints."
  },
  {
   "property": "C65",
   "status": "partial",
   "theorems": [
    "Splitgill.Props.C65_id_query_partial",
    "Splitgill.Props.C65_found_partial",
    "Splitgill.Props.C65_refuted"
   ],
   "note": "Ids are compared without case and only up to the keyword length (C65_refuted). Proved: exactly which records are found."
  },
  {
   "property": "C66",
   "status": "proved",
   "theorems": [
    "Splitgill.Props.C66_exists_query"
   ],
   "note": "For fields whose names are field names (not parsed types)."
  },
  {
   "property": "C53",
   "status": "proved",
   "theorems": [
    "Splitgill.Props.C53_winding",
    "Splitgill.Props.C53_reversed",
    "Splitgill.Props.C53_shapes",
    "Splitgill.Props.C53_dimensions"
   ],
   "note": "Over rational coordinates and exact sums (with floats: C117). Coordinates with more than two dimensions make the winding check raise ValueError (C53_dimensions)."
  },
  {
   "property": "C67",
   "status": "proved",
   "theorems": [
    "Splitgill.Props.C67_indexed",
    "Splitgill.Props.C67_geojson",
    "Splitgill.Props.C67_wkt",
    "Splitgill.Props.C67_not_wkt",
    "Splitgill.Props.C67_hint"
   ],
   "note": "shapely, pyproj and fastnumbers are parameters with stated assumptions (GeoLib.Sane)."
  },
  {
   "property": "C57",
   "status": "partial",
   "theorems": [
    "Splitgill.Props.C57_data_fields_partial",
    "Splitgill.Props.C57_parsed_fields_partial",
    "Splitgill.Props.C57_refuted"
   ],
   "note": "A document whose nested field names start with # may be counted twice for a path (C57_refuted, a consequence of C48_refuted). Proved in full for all other data, for data fields (with links) and parsed fields."
  },
  {
   "property": "C59",
   "status": "partial",
   "theorems": [
    "Splitgill.Props.C59_calm_partial",
    "Splitgill.Props.C59_refuted",
    "Splitgill.Props.C59_refuted_single_ingest",
    "Splitgill.Props.C59_refuted_duplicates"
   ],
   "note": "The property is false of the code: ingest takes no lock, and a change worked out before a commit and written after it overwrites the committed version (C59_refuted; C59_refuted_single_ingest needs only one ingest and one commit). Proved for all schedules without the two races."
  },
  {
   "property": "C68",
   "status": "partial",
   "theorems": [
    "Splitgill.Props.C68_exact_partial",
    "Splitgill.Props.C68_refuted"
   ],
   "note": "A value that changes to an equal one of another type, together with another change, changes the type in the older version too (C68_refuted; diff does not see the first, patch of the reverse diff keeps the new one). Proved if no two data given for a record hold equal but different scalars at one place."
  },
  {
   "property": "C69",
   "status": "proved",
   "theorems": [
    "Splitgill.Props.C69_field_order"
   ],
   "note": "For geometry libraries for which the order of fields of GeoJSON does not matter."
  },
  {
   "property": "C70",
   "status": "partial",
   "theorems": [
    "Splitgill.Props.C70_refuted",
    "Splitgill.Props.C70_first_sync_partial",
    "Splitgill.Props.C70_syncs_partial"
   ],
   "note": "Refuted: empty containers, and empty texts in lists, are lost (C47). Proved up to these (remainsDict) after one sync for all calls, and after any syncs under the conditions of C31; with exact types if no two data of a record hold equal but different scalars at one place."
  },
  {
   "property": "C71",
   "status": "proved",
   "theorems": [
    "Splitgill.Props.C71_calls_return",
    "Splitgill.Props.C71_version"
   ],
   "note": "For one process without failures (see C09, C59 for others); strictly increasing times; streams whose ids do not span lookup batches (C14)."
  },
  {
   "property": "C72",
   "status": "partial",
   "theorems": [
    "Splitgill.Props.C72_order",
    "Splitgill.Props.C72_refuted",
    "Splitgill.Props.C72_strict_partial",
    "Splitgill.Props.C72_far_partial"
   ],
   "note": "Never out of order (all moments). Moments in different milliseconds may have the same timestamp (C72_refuted); not so if the later one is not a whole millisecond."
  },
  {
   "property": "C73",
   "status": "partial",
   "theorems": [
    "Splitgill.Props.C73_refuted",
    "Splitgill.Props.C73_partial",
    "Splitgill.Props.C73_circles",
    "Splitgill.Props.C73_recent",
    "Splitgill.Props.C73_circles_recent"
   ],
   "note": "Refuted: 0.0 and -0.0 share an entry of the cache. Proved when not both occur, and the date formats are unambiguous (C64). C73_circles is for the cache of create_polygon_circle (coordinates are rational numbers there). C73_recent and C73_circles_recent say which entries the caches keep: the last ones used."
  },
  {
   "property": "C74",
   "status": "partial",
   "theorems": [
    "Splitgill.Props.C74_refuted",
    "Splitgill.Props.C74_partial",
    "Splitgill.Props.C74_uncommitted",
    "Splitgill.Props.C74_each",
    "Splitgill.Props.C74_data",
    "Splitgill.Props.C74_answers"
   ],
   "note": "Refuted: a commit during the sync makes it index some of the newly committed records and not others, and the later sync then has nothing to do. Proved for any interleaving with writes that do not commit; and, when others do commit records (not options) during syncs, for every record that nobody ingests while a sync runs: all searches and queries find of it what they would if nobody had disturbed the syncs."
  },
  {
   "property": "C75",
   "status": "proved",
   "theorems": [
    "Splitgill.Props.C75_histories",
    "Splitgill.Props.C75_committed_stays",
    "Splitgill.Props.C75_calls_return",
    "Splitgill.Props.C75_locked"
   ],
   "note": ""
  },
  {
   "property": "C76",
   "status": "partial",
   "theorems": [
    "Splitgill.Props.C76_refuted",
    "Splitgill.Props.C76_first_sync_partial",
    "Splitgill.Props.C76_syncs_partial",
    "Splitgill.Props.C76_recovery"
   ],
   "note": "Refuted: if the first commit of a database stops between the data and the options, sync() raises until options are committed. Proved if there are committed options, with the conditions of C70; and that release and commit repair it."
  },
  {
   "property": "C77",
   "status": "partial",
   "theorems": [
    "Splitgill.Props.C77_refuted",
    "Splitgill.Props.C77_first_sync_partial",
    "Splitgill.Props.C77_syncs_partial",
    "Splitgill.Props.C77_exists_first_sync",
    "Splitgill.Props.C77_exists_syncs_partial",
    "Splitgill.Props.C77_id_partial"
   ],
   "note": "Refuted: when a record holds 1 and later True in the same place, the older version is indexed with True and found by term_query(field, True). Proved for exists_query after one sync, and for the other queries if no two data given for a record hold equal but different scalars at the same place, with the conditions of C70 for several syncs."
  },
  {
   "property": "C78",
   "status": "partial",
   "theorems": [
    "Splitgill.Props.C78_refuted",
    "Splitgill.Props.C78_data_fields_partial",
    "Splitgill.Props.C78_data_fields_syncs_partial",
    "Splitgill.Props.C78_parsed_fields_partial",
    "Splitgill.Props.C78_parsed_fields_syncs_partial"
   ],
   "note": "Refuted by field names below the root that start with # (see C57). Proved without such names (and without names starting with _ for the parsed fields), with the conditions of C77."
  },
  {
   "property": "C79",
   "status": "proved",
   "theorems": [
    "Splitgill.Props.C79_options",
    "Splitgill.Props.C79_versions",
    "Splitgill.Props.C79_stays",
    "Splitgill.Props.C79_stopped",
    "Splitgill.Props.C79_indexed"
   ],
   "note": "For clocks that increase and options as ParsingOptions can hold them. Calls that are stopped give one of the histories the specification allows."
  },
  {
   "property": "C80",
   "status": "partial",
   "theorems": [
    "Splitgill.Props.C80_refuted",
    "Splitgill.Props.C80_first_sync_partial",
    "Splitgill.Props.C80_syncs_partial",
    "Splitgill.Props.C80_each_partial"
   ],
   "note": "Refuted: when a record holds 1 and later True in the same place, the older version is indexed with True, so options that change how 1 is read are not listed. Proved if no two data given for a record hold equal but different scalars at the same place and there is no NaN, with the conditions of C70 for several syncs; and all versions at which a record changes are listed under conditions on that record alone (C80_each_partial)."
  },
  {
   "property": "C81",
   "status": "proved",
   "theorems": [
    "Splitgill.Props.C81_schedules",
    "Splitgill.Props.C81_two_runs",
    "Splitgill.Props.C81_calls",
    "Splitgill.Props.C81_queries_partial"
   ],
   "note": "For writes that return and requests that timed out only if the server did not carry them out (otherwise C44_refuted). C81_queries_partial joins it with C77 under the conditions of C77."
  },
  {
   "property": "C82",
   "status": "partial",
   "theorems": [
    "Splitgill.Props.C82_match",
    "Splitgill.Props.C82_stored_found",
    "Splitgill.Props.C82_first_sync_partial",
    "Splitgill.Props.C82_syncs_partial",
    "Splitgill.Props.C82_refuted"
   ],
   "note": "The analyzer of Elasticsearch is a parameter (any function from text to words); scores, fuzziness and other keyword arguments of match are not modelled. C82_refuted: the change of type of C68 makes an old version found by the words of the new one. Excluded in the partial theorems: equal but different scalars (1, True, 1.0) at the same place, and for later syncs pending data and updates that delete."
  },
  {
   "property": "C83",
   "status": "partial",
   "theorems": [
    "Splitgill.Props.C83_places",
    "Splitgill.Props.C83_field_points",
    "Splitgill.Props.C83_has_geo",
    "Splitgill.Props.C83_copies",
    "Splitgill.Props.C83_points_or_shapes",
    "Splitgill.Props.C83_first_sync",
    "Splitgill.Props.C83_first_sync_typed",
    "Splitgill.Props.C83_syncs_partial",
    "Splitgill.Props.C83_refuted"
   ],
   "note": "C83_first_sync holds for all orderly histories, for geometry libraries that treat equal values alike (PlacesOfEqual). Shapely does not for a boolean beside a text (C112_booleans, C112_equal_refuted); for data without values that are equal but of different types C83_first_sync_typed holds for all libraries. For later syncs the conditions of C70 are needed: C83_refuted is the record changed and deleted between two syncs (C31). C83_places needs hints with different latitude fields, which the options builder ensures (C28)."
  },
  {
   "property": "C84",
   "status": "proved",
   "theorems": [
    "Splitgill.Props.C84_schedule",
    "Splitgill.Props.C84_alone",
    "Splitgill.Props.C84_others",
    "Splitgill.Props.C84_ingests"
   ],
   "note": "C84_schedule is about any lookups and writes, C84_alone, C84_others and C84_ingests about processes that go step by step through ingest. With common records it does not hold (C59)."
  },
  {
   "property": "C85",
   "status": "partial",
   "theorems": [
    "Splitgill.Props.C85_calendar",
    "Splitgill.Props.C85_read_back",
    "Splitgill.Props.C85_refuted",
    "Splitgill.Props.C85_datetime_partial",
    "Splitgill.Props.C85_date_partial",
    "Splitgill.Props.C85_term_partial",
    "Splitgill.Props.C85_found_partial"
   ],
   "note": "Refuted where strftime does not write years before 1000 with four digits (glibc): such datetimes are not indexed as dates. Proved for years written with four digits. Assumed: strptime reads ASCII texts as modelled (ReadsDates), for the directives %Y %m %d %H %M %S %f %z."
  },
  {
   "property": "C86",
   "status": "partial",
   "theorems": [
    "Splitgill.Props.C86_before_partial",
    "Splitgill.Props.C86_failed_partial",
    "Splitgill.Props.C86_failures_partial",
    "Splitgill.Props.C86_each_index_partial",
    "Splitgill.Props.C86_returned_partial",
    "Splitgill.Props.C86_sync_partial",
    "Splitgill.Props.C86_refuted",
    "Splitgill.Props.C86_others_refuted"
   ],
   "note": "The full statement is C86_full. Elasticsearch refreshes the indices of one request one after another, so an archive and the latest index can be seen at different states (C86_refuted): each index is seen either as before or complete. A write_ops that gets no operations refreshes and resets all indices of Elasticsearch, also those that another sync has paused (C86_others_refuted). sync(resync=True) deletes the archives first, as documented."
  },
  {
   "property": "C87",
   "status": "partial",
   "theorems": [
    "Splitgill.Props.C87_found_partial",
    "Splitgill.Props.C87_latest_partial",
    "Splitgill.Props.C87_refuted"
   ],
   "note": "Refuted: archive documents have no ids, so each sync adds its own (C87_full, C87_refuted). Proved: the latest index is exact, every search finds the same documents as after one sync, those from archives possibly more than once; exact if no operation is for an archive."
  },
  {
   "property": "C88",
   "status": "partial",
   "theorems": [
    "Splitgill.Props.C88_commits_partial",
    "Splitgill.Props.C88_locked_partial",
    "Splitgill.Props.C88_kept_partial",
    "Splitgill.Props.C88_final_partial",
    "Splitgill.Props.C88_given_partial",
    "Splitgill.Props.C88_refuted",
    "Splitgill.Props.C88_two_refuted",
    "Splitgill.Props.C88_default_refuted"
   ],
   "note": "Refuted: a rollback of another process, two updates at the same time (both get the same version, one is never seen), and on a new database a commit that inserts the default options (C88_refuted, C88_two_refuted, C88_default_refuted). Proved: it holds if options were committed before, none are pending and the others only commit; AlreadyLocked leaves the options pending or committed; versions never vanish; options of a version are final when the call that made it returns; only given or default options are seen."
  },
  {
   "property": "C89",
   "status": "partial",
   "theorems": [
    "Splitgill.Props.C89_stable_partial",
    "Splitgill.Props.C89_answers_partial",
    "Splitgill.Props.C89_each_partial",
    "Splitgill.Props.C89_history",
    "Splitgill.Props.C89_refuted",
    "Splitgill.Props.C89_deleted_refuted"
   ],
   "note": "Refuted: a record changed and then deleted between two syncs is found twice at its first version afterwards (C89_deleted_refuted, see C31), and so is one with True for 1 and new options (C89_refuted, see C68). Proved under the conditions of C70, and for each record under the conditions on that record alone (C89_each_partial); the data and options as of a past version never change (C89_history)."
  },
  {
   "property": "C90",
   "status": "proved",
   "theorems": [
    "Splitgill.Props.C90_each",
    "Splitgill.Props.C90_data",
    "Splitgill.Props.C90_queries",
    "Splitgill.Props.C129_each"
   ],
   "note": "The syncs also always succeed, whatever the records. C90_each compares with one sync of everything at the end; C90_data and C90_queries state it in terms of the calls, and C129_each does for all kinds of queries."
  },
  {
   "property": "C91",
   "status": "proved",
   "theorems": [
    "Splitgill.Props.C91_metadata",
    "Splitgill.Props.C91_acquire",
    "Splitgill.Props.C91_release",
    "Splitgill.Props.C91_blocks",
    "Splitgill.Props.C91_by_hand_refuted"
   ],
   "note": "The condition about releasing by hand is needed: C91_by_hand_refuted shows a block whose end frees the lock of another process, because leaving a block deletes by lock id and not by who took it."
  },
  {
   "property": "C92",
   "status": "proved",
   "theorems": [
    "Splitgill.Props.C92_search",
    "Splitgill.Props.C92_queries",
    "Splitgill.Props.C92_data",
    "Splitgill.Props.C92_answers"
   ],
   "note": "This bounds what C31, C70 and C89 refute: no condition about deletions is left, except where a document that should not be there is allowed."
  },
  {
   "property": "C93",
   "status": "partial",
   "theorems": [
    "Splitgill.Props.C93_refuted",
    "Splitgill.Props.C93_same_partial",
    "Splitgill.Props.C93_iff_partial",
    "Splitgill.Props.C93_returns_partial",
    "Splitgill.Props.C93_forever_partial",
    "Splitgill.Props.C93_heights"
   ],
   "note": "Refuted by a float format that raises (with_float_format checks nothing), and by what refutes C63. C93_same_partial connects the model of syncs of the other properties (which have a value for exceptions of parse) with the code, in which the exception ends the sync. What a sync that raises has written before is not said here (C45, C74)."
  },
  {
   "property": "C94",
   "status": "partial",
   "theorems": [
    "Splitgill.Props.C94_refuted",
    "Splitgill.Props.C94_json",
    "Splitgill.Props.C94_requests_partial",
    "Splitgill.Props.C94_index",
    "Splitgill.Props.C94_raises",
    "Splitgill.Props.C94_stored",
    "Splitgill.Props.C94_document"
   ],
   "note": "Refuted by ids of deletions with quotes (as C58). Holds for all requests without deletions and for deletions of plain ids. How finite floats are written and read is a parameter with the condition that they are read as they were written; strings are sequences of characters (no lone surrogates, for which orjson raises)."
  },
  {
   "property": "C95",
   "status": "partial",
   "theorems": [
    "Splitgill.Props.C95_refuted",
    "Splitgill.Props.C95_rebuild",
    "Splitgill.Props.C95_first_sync_partial",
    "Splitgill.Props.C95_syncs_partial",
    "Splitgill.Props.C95_queries",
    "Splitgill.Props.C95_match",
    "Splitgill.Props.C95_exists"
   ],
   "note": "Refuted by an infinity. Otherwise as C70: equal data after a first sync, the same with all types without puns; what C47 says of empty values stays. All kinds of queries find the same documents as before the values went through JSON."
  },
  {
   "property": "C96",
   "status": "proved",
   "theorems": [
    "Splitgill.Props.C96_result",
    "Splitgill.Props.C96_inputs"
   ],
   "note": "The values are Python values without cycles. This connects the two models of patch: what C01 to C03 say of patch on values holds for the program on objects."
  },
  {
   "property": "C97",
   "status": "partial",
   "theorems": [
    "Splitgill.Props.C97_refuted",
    "Splitgill.Props.C97_resync_refuted",
    "Splitgill.Props.C97_stream",
    "Splitgill.Props.C97_hidden_partial",
    "Splitgill.Props.C97_again_partial",
    "Splitgill.Props.C97_archives_lost",
    "Splitgill.Props.C97_arcs",
    "Splitgill.Props.C97_repair_partial"
   ],
   "note": "Refuted: when somebody else refreshes the indices after the exception, the next sync takes the newest version it sees for the version of the indices and returns without the other records; and sync(resync=True) and resync_arcs() delete the archives before they write, so after an exception old versions are not found. Proved for sync() without refreshes by others (that searches see the same and that syncs go on raising), and what the others leave."
  },
  {
   "property": "C98",
   "status": "proved",
   "theorems": [
    "Splitgill.Props.C98_documents",
    "Splitgill.Props.C98_initial",
    "Splitgill.Props.C98_same_types",
    "Splitgill.Props.C98_sync",
    "Splitgill.Props.C98_sharp"
   ],
   "note": "Mappings and dynamic templates of templates.py, with Elasticsearch's rules for new fields as functions."
  },
  {
   "property": "C99",
   "status": "proved",
   "theorems": [
    "Splitgill.Props.C99_stored",
    "Splitgill.Props.C99_steps",
    "Splitgill.Props.C99_fits",
    "Splitgill.Props.C99_raises",
    "Splitgill.Props.C99_new",
    "Splitgill.Props.C99_sync"
   ],
   "note": "A stored record need not make the ingest raise: an int equal to a stored float is no change (see the example beside C99_new)."
  },
  {
   "property": "C100",
   "status": "proved",
   "theorems": [
    "Splitgill.Props.C100_fields",
    "Splitgill.Props.C100_no_places",
    "Splitgill.Props.C100_sync",
    "Splitgill.Props.C100_exact",
    "Splitgill.Props.C100_exact_no_places"
   ],
   "note": "The comment in the template says 'a maximum of around 500-600 fields': this is right only for data without places."
  },
  {
   "property": "C101",
   "status": "partial",
   "theorems": [
    "Splitgill.Props.C101_fields_partial",
    "Splitgill.Props.C101_calls_partial",
    "Splitgill.Props.C101_syncs_partial",
    "Splitgill.Props.C101_stopped_partial",
    "Splitgill.Props.C101_stopped_syncs_partial",
    "Splitgill.Props.C101_refuted"
   ],
   "note": "Refuted in full: where a name below the root begins with '#', elements of lists are counted twice (C57). Holds where no such name begins with '#' or '_'."
  },
  {
   "property": "C102",
   "status": "partial",
   "theorems": [
    "Splitgill.Props.C102_first_sync_partial",
    "Splitgill.Props.C102_syncs_partial",
    "Splitgill.Props.C102_calls",
    "Splitgill.Props.C102_floats_partial",
    "Splitgill.Props.C102_refuted",
    "Splitgill.Props.C102_quotes"
   ],
   "note": "Refuted in full: infinities come back as None, and ids with quotes make requests that cannot be read. Holds for what can be sent (64-bit ints, at most 443 fields, keyword lengths up to 8191, plain ids), with the conditions of C70 for more than one sync."
  },
  {
   "property": "C103",
   "status": "partial",
   "theorems": [
    "Splitgill.Props.C103_first_sync_partial",
    "Splitgill.Props.C103_syncs_partial",
    "Splitgill.Props.C103_refuted"
   ],
   "note": "Refuted in full by equal scalars of different types (C77_refuted). Holds without these, if there are committed options; with the conditions of C70 for more than one sync."
  },
  {
   "property": "C104",
   "status": "partial",
   "theorems": [
    "Splitgill.Props.C104_refuted",
    "Splitgill.Props.C104_sorted",
    "Splitgill.Props.C104_listed",
    "Splitgill.Props.C104_own_partial",
    "Splitgill.Props.C104_history"
   ],
   "note": "Refuted in full by names such as foo and foo-bar (as C46). C104_listed says which names are listed in all cases; C104_own_partial and C104_history are for names that are apart."
  },
  {
   "property": "C105",
   "status": "partial",
   "theorems": [
    "Splitgill.Props.C105_refuted",
    "Splitgill.Props.C105_newest_partial",
    "Splitgill.Props.C105_syncs_partial",
    "Splitgill.Props.C105_clock"
   ],
   "note": "Refuted in full: 2**53 + 1 is read as 2**53. Holds for all versions up to 2**53; C105_clock: those of the clock are, up to the end of the year 9999. The other properties use the exact maximum, which is justified by this one."
  },
  {
   "property": "C106",
   "status": "partial",
   "theorems": [
    "Splitgill.Props.C106_refuted",
    "Splitgill.Props.C106_document",
    "Splitgill.Props.C106_calls",
    "Splitgill.Props.C106_first_sync_partial",
    "Splitgill.Props.C106_syncs_partial"
   ],
   "note": "Refuted in full by equal but different scalars, as C77. C106_document and C106_calls: queries by entries and types find what queries by names find, which the other properties on queries use; so these hold for the indices of Elasticsearch as far as the data can be sent (C102)."
  },
  {
   "property": "C107",
   "status": "partial",
   "theorems": [
    "Splitgill.Props.C107_refuted",
    "Splitgill.Props.C107_calls",
    "Splitgill.Props.C107_first_sync_partial",
    "Splitgill.Props.C107_syncs_partial"
   ],
   "note": "Refuted in full by field names that start with '#' (C57). C107_calls: all these functions return on the indices of Elasticsearch what they return in the model of the other properties. The partial theorems state what they return from calls of the API, for data without NaN (versions and counts) or without names that start with '#' or '_' below the root (fields), as far as the data can be sent (C102)."
  },
  {
   "property": "C108",
   "status": "partial",
   "theorems": [
    "Splitgill.Props.C108_refuted",
    "Splitgill.Props.C108_meant",
    "Splitgill.Props.C108_raises",
    "Splitgill.Props.C108_read_partial",
    "Splitgill.Props.C108_default",
    "Splitgill.Props.C108_value"
   ],
   "note": "Refuted: a format in which a directive comes twice, such as %Y/%Y, makes strptime raise re.error, which is not a ValueError and ends the sync (C108_raises says exactly when). C108_meant: what is read was meant, for all formats. C108_read_partial: what is meant is read, for formats in which each number is followed by something that cannot be a part of it. C108_default: for the default formats in any order a text is read as a moment if and only if it is one for it, and at most one datetime is meant. C108_value connects the loop with the parser of the other properties."
  },
  {
   "property": "C109",
   "status": "proved",
   "theorems": [
    "Splitgill.Props.C109_mutex",
    "Splitgill.Props.C109_ends",
    "Splitgill.Props.C109_lock",
    "Splitgill.Props.C109_raise"
   ],
   "note": "C109_mutex assumes that locks are released by hand only when no living process has them, as C20. C109_ends: at most 19 commands and one for each uncommitted document when the other processes stand still (update_many and delete_many are taken to go on as long as there are uncommitted documents). That the delete_one of a lock itself fails is taken as a crash."
  },
  {
   "property": "C110",
   "status": "proved",
   "theorems": [
    "Splitgill.Props.C110_unique",
    "Splitgill.Props.C110_numbers",
    "Splitgill.Props.C110_none",
    "Splitgill.Props.C110_found",
    "Splitgill.Props.C110_ints",
    "Splitgill.Props.C110_bools",
    "Splitgill.Props.C110_dates"
   ],
   "note": "That fastnumbers reads ASCII texts this way is an assumption (ParseEnv.ReadsNumbers), met by a concrete reader in the examples. Numbers that are too large or too small for normal doubles and texts with other characters are not covered. C110_numbers says both directions; the grammar (Numeral) is a separate specification and the function that reads texts is proved to be sound and complete for it."
  },
  {
   "property": "C111",
   "status": "proved",
   "theorems": [
    "Splitgill.Props.C111_text",
    "Splitgill.Props.C111_special",
    "Splitgill.Props.C111_none",
    "Splitgill.Props.C111_same",
    "Splitgill.Props.C111_ints",
    "Splitgill.Props.C111_digits",
    "Splitgill.Props.C111_back",
    "Splitgill.Props.C111_default",
    "Splitgill.Props.C111_like_ints",
    "Splitgill.Props.C111_found"
   ],
   "note": "str.format is modelled for the formats {0:.Pg} (assumed as ParseEnv.FormatsG); other formats stay a parameter. Doubles without the limits of the exponent, as in C54."
  },
  {
   "property": "C112",
   "status": "partial",
   "theorems": [
    "Splitgill.Props.C112_unique",
    "Splitgill.Props.C112_hint",
    "Splitgill.Props.C112_indexed",
    "Splitgill.Props.C112_not_indexed",
    "Splitgill.Props.C112_has_geo",
    "Splitgill.Props.C112_first_sync",
    "Splitgill.Props.C112_booleans",
    "Splitgill.Props.C112_equal_refuted"
   ],
   "note": "Point and try_float are modelled for scalars: lists, texts with other characters or underscores, numbers beyond the normal doubles and the words for NaN and infinities are not (Value.Plain); that the libraries read so is assumed as GeoLib.Reads. C112_equal_refuted shows that what C83_first_sync assumes (PlacesOfEqual) is needed: True for 1 beside a text makes a difference, but ingest takes them as equal."
  },
  {
   "property": "C113",
   "status": "proved",
   "theorems": [
    "Splitgill.Props.C113_text",
    "Splitgill.Props.C113_zero",
    "Splitgill.Props.C113_unique",
    "Splitgill.Props.C113_keeps",
    "Splitgill.Props.C113_json",
    "Splitgill.Props.C113_different",
    "Splitgill.Props.C113_typed",
    "Splitgill.Props.C113_plain"
   ],
   "note": "orjson is modelled for floats by what its algorithm is specified to give; that Elasticsearch reads the nearest double is assumed (jsonFloats.read). The limits of the exponents of doubles are not modelled. With C113 the conditions of C102 on floats fall away: C102_floats_partial."
  },
  {
   "property": "C114",
   "status": "proved",
   "theorems": [
    "Splitgill.Props.C114_accepted",
    "Splitgill.Props.C114_new_index",
    "Splitgill.Props.C114_rejected",
    "Splitgill.Props.C114_exact",
    "Splitgill.Props.C114_sync",
    "Splitgill.Props.C114_ids",
    "Splitgill.Props.C114_refuted"
   ],
   "note": "The limits are defaults of Elasticsearch that the templates do not set. None, empty texts, NaN and infinities are sent as null in the unparsed field, which needs no object, so the rejection is of other values. C114_refuted is an ingest of a record that cannot be synced."
  },
  {
   "property": "C115",
   "status": "partial",
   "theorems": [
    "Splitgill.Props.C115_refuted",
    "Splitgill.Props.C115_terms_partial",
    "Splitgill.Props.C115_negative_zero",
    "Splitgill.Props.C115_ranges_partial",
    "Splitgill.Props.C115_both_zeros",
    "Splitgill.Props.C115_search_refuted",
    "Splitgill.Props.C115_first_sync_partial",
    "Splitgill.Props.C115_syncs_partial"
   ],
   "note": "Refuted as stated: {\"a\": -0.0} is not found by term_query(\"a\", 0), though -0.0 == 0. Proved: what terms and ranges match with both zeros, exactly; and that C77 holds for the searches with both zeros if there are no negative zeros in the data."
  },
  {
   "property": "C116",
   "status": "partial",
   "theorems": [
    "Splitgill.Props.C116_refuted",
    "Splitgill.Props.C116_open",
    "Splitgill.Props.C116_names",
    "Splitgill.Props.C116_partial",
    "Splitgill.Props.C116_no_patterns",
    "Splitgill.Props.C116_sync",
    "Splitgill.Props.C116_sync_partial",
    "Splitgill.Props.C116_first_sync_partial"
   ],
   "note": "Refuted as stated: a valid name of 244 bytes makes the name of the latest index too long. Proved: exactly which names Elasticsearch takes; valid names of up to 243 bytes work with up to 100 archives; a sync raises exactly if one of the indices it leads to has a name that does not fit."
  },
  {
   "property": "C117",
   "status": "partial",
   "theorems": [
    "Splitgill.Props.C117_refuted",
    "Splitgill.Props.C117_slivers",
    "Splitgill.Props.C117_partial",
    "Splitgill.Props.C117_dims",
    "Splitgill.Props.C117_grid",
    "Splitgill.Props.C117_geojson_partial"
   ],
   "note": "Refuted without a condition on the area: triangles some degrees long and 2**-46 degrees high are rejected although right, or accepted although wrong. Proved with the condition, and for coordinates on a grid without it. The limits of the exponent are not modelled."
  },
  {
   "property": "C118",
   "status": "partial",
   "theorems": [
    "Splitgill.Props.C118_refuted",
    "Splitgill.Props.C118_partial",
    "Splitgill.Props.C118_new",
    "Splitgill.Props.C118_delete",
    "Splitgill.Props.C118_stored",
    "Splitgill.Props.C118_steps",
    "Splitgill.Props.C118_rollback"
   ],
   "note": "Refuted in full for every limit: data that MongoDB takes as a new record, but with fewer than five levels to spare, can be ingested and then not be deleted, as the diff holds the old data five levels deep. Proved for data with five levels to spare."
  },
  {
   "property": "C119",
   "status": "partial",
   "theorems": [
    "Splitgill.Props.C119_refuted",
    "Splitgill.Props.C119_partial",
    "Splitgill.Props.C119_only",
    "Splitgill.Props.C119_stored",
    "Splitgill.Props.C119_versions",
    "Splitgill.Props.C119_commit",
    "Splitgill.Props.C119_blocked",
    "Splitgill.Props.C119_steps"
   ],
   "note": "Refuted in full for every limit: a record of 80 bytes that is changed again and again comes to a change that is refused. Proved for calls whose documents are within the limit."
  },
  {
   "property": "C120",
   "status": "partial",
   "theorems": [
    "Splitgill.Props.C120_refuted",
    "Splitgill.Props.C120_same_partial",
    "Splitgill.Props.C120_returned",
    "Splitgill.Props.C120_committed",
    "Splitgill.Props.C120_seen",
    "Splitgill.Props.C120_data"
   ],
   "note": "Refuted in one point: if another process commits between the writes of an ingest, the records written before become visible at the earlier version of that commit (C120_refuted). Proved without restriction: everything is committed, with the ingested data, at a version not after the one returned (C120_returned). Proved if nobody else gives versions while the ingest runs: all changes have the version returned (C120_same_partial). The lock is released by hand only when nobody holds it, except in C120_committed and C120_data."
  },
  {
   "property": "C121",
   "status": "partial",
   "theorems": [
    "Splitgill.Props.C121_refuted",
    "Splitgill.Props.C121_partial",
    "Splitgill.Props.C121_each",
    "Splitgill.Props.C121_arcs",
    "Splitgill.Props.C121_tidy",
    "Splitgill.Props.C121_alone"
   ],
   "note": "Refuted: a record that gets uncommitted changes before the cursor comes to it is skipped, after its archived versions have been deleted (C121_refuted). Proved for all records that are read, even if others commit changes of them meanwhile (C121_partial), with equality at all versions for those that nobody ingests meanwhile (C121_each), and for resync_arcs (C121_arcs). Not for deleted records (C32)."
  },
  {
   "property": "C122",
   "status": "partial",
   "theorems": [
    "Splitgill.Props.C122_reads",
    "Splitgill.Props.C122_kept_partial",
    "Splitgill.Props.C122_found",
    "Splitgill.Props.C122_refuted"
   ],
   "note": "Refuted: an ingest that has looked up a record with uncommitted data replaces the version that another process commits before the write (C122_refuted). Proved: histories stay readable (C122_reads), versions of records that had no uncommitted data at the start stay, as do those shown before the process that ingests the record begins or after it has written (C122_kept_partial), and what an ingest with commit returned for is found (C122_found)."
  },
  {
   "property": "C123",
   "status": "partial",
   "theorems": [
    "Splitgill.Props.C123_held_partial",
    "Splitgill.Props.C123_requests",
    "Splitgill.Props.C123_ahead",
    "Splitgill.Props.C123_refuted"
   ],
   "note": "Refuted for a buffer_multiplier of 0, which means no limit (C123_refuted); proved for all other options (C123_held_partial). One chunk more can be in memory, which the main task holds while it waits for room."
  },
  {
   "property": "C124",
   "status": "proved",
   "theorems": [
    "Splitgill.Props.C124_ends",
    "Splitgill.Props.C124_returns",
    "Splitgill.Props.C124_held"
   ],
   "note": "A step is one command to MongoDB or one operation taken from the generator; that a bulk_write carries its operations out one by one, with those of others in between, is the model's assumption about MongoDB."
  },
  {
   "property": "C125",
   "status": "proved",
   "theorems": [
    "Splitgill.Props.C125_shown",
    "Splitgill.Props.C125_any",
    "Splitgill.Props.C125_exact",
    "Splitgill.Props.C125_ingested",
    "Splitgill.Props.C125_writers",
    "Splitgill.Props.C125_syncs",
    "Splitgill.Props.C125_stopped"
   ],
   "note": "It says what is shown is true as of its version, not that it is the newest one: what can be missing or out of date is in C31, C74, C87 and C91. A sync reads the options before the records. Options that are committed while a sync runs are not in its documents."
  },
  {
   "property": "C126",
   "status": "partial",
   "theorems": [
    "Splitgill.Props.C126_refuted",
    "Splitgill.Props.C126_last_partial",
    "Splitgill.Props.C126_unchanged_partial",
    "Splitgill.Props.C126_order_partial",
    "Splitgill.Props.C126_calls_partial",
    "Splitgill.Props.C126_queries_partial"
   ],
   "note": "Refuted in full (C126_refuted): nothing keeps two syncs from running at once. Both syncs are taken to see the same documents in the indices when they start. Archives may hold a document twice (C87). A resync repairs the indices (C32)."
  },
  {
   "property": "C127",
   "status": "proved",
   "theorems": [
    "Splitgill.Props.C127_read",
    "Splitgill.Props.C127_different",
    "Splitgill.Props.C127_stopped",
    "Splitgill.Props.C127_sized",
    "Splitgill.Props.C127_calls",
    "Splitgill.Props.C127_names",
    "Splitgill.Props.C127_size",
    "Splitgill.Props.C127_floats",
    "Splitgill.Props.C127_options",
    "Splitgill.Props.C127_int_witness",
    "Splitgill.Props.C127_nul_witness"
   ],
   "note": "BSON is modelled as its specification has it, with the types that the data has, and floats as IEEE 754 binary64; there is one NaN. The positions in diffs fit into 64 bits since they are those of lists in the data that was given. The ObjectId is left out of the bytes. The witnesses show why ints must fit and names must have no NUL."
  },
  {
   "property": "C128",
   "status": "partial",
   "theorems": [
    "Splitgill.Props.C128_resync_partial",
    "Splitgill.Props.C128_arcs",
    "Splitgill.Props.C128_attempts",
    "Splitgill.Props.C128_later_partial",
    "Splitgill.Props.C128_refuted"
   ],
   "note": "Refuted: a record that was deleted after the last sync stays in the latest index and is still found (C32). Proved if the documents in the latest index are of records that exist now and have no uncommitted changes; for resync_arcs if the latest index is right. No record holds equal values of different types in the same place (C68); the conditions of C103 and C101 for versions and fields."
  },
  {
   "property": "C129",
   "status": "proved",
   "theorems": [
    "Splitgill.Props.C129_now",
    "Splitgill.Props.C129_first",
    "Splitgill.Props.C129_syncs",
    "Splitgill.Props.C129_repaired",
    "Splitgill.Props.C129_each",
    "Splitgill.Props.C129_each_steps"
   ],
   "note": "C129_each and C129_each_steps (with calls that may be stopped half way) have conditions only about the record asked for. With the conditions of C70, C90, C101 and C128, which are in the statement; see there for what happens without them."
  },
  {
   "property": "C130",
   "status": "proved",
   "theorems": [
    "Splitgill.Props.C130_ever",
    "Splitgill.Props.C130_first",
    "Splitgill.Props.C130_syncs",
    "Splitgill.Props.C130_repaired",
    "Splitgill.Props.C130_each",
    "Splitgill.Props.C129_each_steps"
   ],
   "note": "C130_each and C129_each_steps (with calls that may be stopped half way) have conditions only about the record asked for. With the conditions of C70, C90 and C128, which are in the statement; see there for what happens without them."
  },
  {
   "property": "C131",
   "status": "proved",
   "theorems": [
    "Splitgill.Props.C131_isolated"
   ],
   "note": "The conditions on the record are those of C90; what happens without them is in C31, C70 and C92."
  },
  {
   "property": "C132",
   "status": "proved",
   "theorems": [
    "Splitgill.Props.C132_truthful",
    "Splitgill.Props.C132_truthful_steps",
    "Splitgill.Props.C132_truthful_race"
   ],
   "note": "No condition on the records. Data is compared with == (and NaN is equal to NaN), since C03 and C68 refute more; the data is what remains of it after indexing (C47). C132_truthful_steps: also if calls are stopped half way. C132_truthful_race: also if others write and commit while the syncs run."
  }
 ]
}