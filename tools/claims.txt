C01 proved | C01_patch_diff | All pairs of dicts; equality is Python's == with NaN equal to itself.
C02 proved | C02_diff_empty_iff, C02_ops_nontrivial_distinct | 
C03 partial | C03_refuted, C03_type_exact_partial | The code violates the full statement (1 == True); exact iff no place holds two different scalars that compare equal.
C04 proved | C04_patch_inputs_unchanged | Heap model with arbitrary sharing.
C13 proved | C13_prepared_id | For every unicode classification meeting the stated laws.
C16 proved | C16_names_clean | For every unicode classification meeting the stated laws.
C17 partial | C17_refuted, C17_texts_clean_partial | The code violates the full statement: the text str(value) of a value of another type is stored uncleaned. Proved when those texts are clean.
C18 partial | C18_names_idempotent, C18_refuted, C18_values_idempotent_partial | Field names: proved. Values: refuted through the str() fallback, proved otherwise.
C19 partial | C19_refuted, C19_entries_partial | The code violates the full statement when two names clean to the same name; proved (as an equivalence) otherwise.
C29 partial | C29_refuted, C29_effective_partial, C29_documents_partial | Refuted: options committed before a record was created (other than the oldest) are ignored, the oldest ones are used instead. Proved for all records with the options the code uses, and in full when no options were changed before the record was created.
C30 proved | C30_first_sync, C30_api | 
C31 partial | C31_refuted, C31_incremental_partial, C31_api_partial, C31_parsed_partial, C31_parsed_refuted | Refuted: a record changed and then deleted between two syncs stays in the latest index; and if a value changes to an equal one of another type the archives may hold two documents for one version. Proved for any number of syncs without such a record.
C32 partial | C32_refuted, C32_resync_partial, C32_existing_partial | Refuted: documents of records deleted since the last sync stay in the latest index. Proved: what the indices are in all cases, and the full claim when the latest index has only records that exist.
C33 proved | C33_resync_arcs | 
C34 proved | C34_sync_twice | 
C35 partial | C35_refuted, C35_pending_partial, C35_api_partial, C35_parsed_partial, C35_stopped_partial | Refuted: committed versions of a record with an uncommitted change at a sync can stay missing. Proved when such records have no committed version since the sync before.
C40 proved | C40_archives, C40_operations | 
C55 proved | C55_partition | 
C05 proved | C05_history, C05_api | All event sequences including crashes; strictly increasing commit times; streams whose ids do not span lookup batches (C14).
C06 proved | C06_get_versions, C06_flags | 
C07 proved | C07_committed_immutable | Including crashes after any write of any later operation.
C08 proved | C08_rollback | Including crashes of the ingest and of the rollback itself.
C09 partial | C09_refuted, C09_later_versions_partial | The code does not compare the clock with earlier versions: two commits in one millisecond refute the full statement. Proved for a strictly increasing clock.
C10 partial | C10_refuted, C10_reingest_partial | Refuted by NaN; proved for data equal in Python's sense on committed and on never committed records.
C11 proved | C11_ingest_one | 
C12 proved | C12_modified_field | 
C14 partial | C14_refuted, C14_last_wins_partial, C14_settled_partial, C14_when_settled, C14_twice | Refuted: an id in two lookup batches is inserted twice. Proved when no id spans two batches (C14_last_wins_partial), and also for ids in several batches when no operation for a record of a batch waits at its lookup (C14_settled_partial), which is so when every batch but the last makes 200 operations (C14_when_settled). C14_twice: a new id in two batches of which the first repeats an id is always inserted twice.
C15 proved | C15_counts | 
C27 proved | C27_from_doc_to_doc | 
C28 proved | C28_builder, C28_keyword_rejected, C28_based_on | 
C62 partial | C62_refuted, C62_ignored_partial | Refuted: an empty true or false value is added (the docstrings say nothing happens). Proved for the other cases.
C20 proved | C20_mutex, C20_loser_changes_nothing, C20_alone | C20_alone ties the command-by-command commit to the whole one.
C21 proved | C21_context_manager, C21_crash_keeps_lock, C21_release_frees, C21_other_locks | 
C22 proved | C22_commit | The effect on other databases is C24.
C23 proved | C23_recommit, C23_histories | 
C24 partial | C24_refuted, C24_commit_refuted, C24_isolation_partial | Refuted: the options queries have no name filter. Proved for data, locks, committed options, and for everything when the other database has no uncommitted options.
C25 partial | C25_refuted, C25_options_partial | Refuted with two databases (has_options has no name filter). Proved when the client uses one database.
C26 partial | C26_refuted, C26_update_partial | Refuted: hints compare by latitude field only. Proved when hints with the same latitude field agree.
C61 partial | C61_refuted, C61_version_partial, C61_sound_partial | Refuted when all records have uncommitted changes. Proved without uncommitted data.
C36 partial | C36_refuted, C36_search_partial, C36_options_partial, C36_latest_partial, C36_api_partial, C36_parsed_partial | Refuted: a record made after several versions of the options is parsed with the oldest ones. Proved for every history with the options the code uses, and in full for records before which the options were not changed more than once.
C37 proved | C37_latest_shortcut | 
C38 proved | C38_versions, C38_always, C38_always_steps, C38_always_race | C38_always, C38_always_steps: after any calls, also if they are stopped half way, and syncs, whatever the records, searches at a version and at the rounded version find the same. C38_always_race: also if others write and commit while the syncs run.
C39 partial | C39_refuted, C39_counts_partial, C39_first_sync_partial, C39_syncs_partial | Refuted: counts of replaced documents overwrite those of new ones. Proved when all or none of the changed records are new; and what the count is otherwise.
C51 proved | C51_index_filter, C51_other_indices | 
C56 proved | C56_iter_terms, C56_order_refuted | Also refuted: the order that the docstring promises.
C41 proved | C41_every_op_once | For every stream, chunk size >= 1, number of workers, buffer size and schedule of the tasks, also when some requests time out and are retried.
C42 proved | C42_schedules | Relative to the ops written in order (sync). Compared as multisets per index. Needs distinct record ids, which MongoDB guarantees.
C43 partial | C43_errors_partial, C43_ends_partial, C43_stuck_partial, C43_reasons, C43_refuted | Errors are never swallowed, and there are no false alarms (full). "write_ops always finishes" is false: a failure in the last chunk makes join() wait forever (C43_refuted). Proved: runs are bounded, and without failures they end.
C44 partial | C44_attempts_partial, C44_not_applied_partial, C44_latest_partial, C44_sync_ops, C44_refuted | At most four requests per chunk (full). Archive documents are duplicated when a timed out request had been carried out (C44_refuted); the latest index never is wrong.
C45 partial | C45_first_resync_partial, C45_resync_partial, C45_invisible_partial, C45_refuted_visible, C45_refuted_invisible | Repeating sync() after a failure loses or duplicates documents; resync=True repairs it.
C46 partial | C46_search_partial, C46_sync_partial, C46_resync_arcs_partial, C46_writes, C46_names, C46_wildcard, C46_arc_wildcard, C46_refuted, C46_refuted_search, C46_refuted_resync, C46_refuted_arcs | False for names such as foo and foo-bar (C46_refuted...). Exactly which indices the wildcards match is proved; for databases whose name is no dashed prefix of another (and is not another one followed by -arc) isolation is proved in full.
C58 partial | C58_partial, C58_refuted, C58_refuted_injection | Ids are not escaped: an id with quotes and a newline makes two delete ops (C58_refuted_injection). Proved: it holds exactly for texts without quotes, backslashes and control characters.
C60 proved | C60_templates | 
C47 partial | C47_rebuild_partial, C47_rebuild_iff_partial, C47_prepared_partial, C47_refuted | Empty dicts and lists are lost, and "" and empty ones in lists become None (C47_refuted). Proved: exactly what is rebuilt, and that the data is rebuilt iff it has none of these.
C48 partial | C48_data_types_partial, C48_parsed_types_partial, C48_refuted, C48_refuted_parsed | A path may be listed twice when a nested field name starts with # or is _id (C48_refuted, C48_refuted_parsed). Proved in full without such nested names.
C49 proved | C49_parsed_values | 
C63 partial | C63_parse_total_partial, C63_refuted | A latitude and longitude in lists of one number raise TypeError (C63_refuted, taking from shapely that Point accepts them). Proved for hints that only match scalars.
C64 partial | C64_date_order_partial, C64_refuted | Two formats may read one text differently (C64_refuted). Proved if they do not.
C54 partial | C54_bounds_partial, C54_all_partial, C54_late_witness, C54_witness, C54_finite, C54_limits, C54_exponent_witness, C54_ranges_partial, C54_now_partial, C54_rounding, C54_before_epoch, C54_date, C54_naive_partial, C54_naive_all_partial, C54_refuted | Float rounding makes to_timestamp one less than the milliseconds of some datetimes (C54_refuted). Proved: up to 2242 it is exact or one less, and exact between 2004-11-03 and 2038-01-19; up to 9999 at most one off, and exact away from the boundaries of milliseconds; range boundaries are kept. Moments before the epoch mirror those after it. Dates are exact; naive datetimes have the timestamp of the same moment with a time zone (1697 to 2242, but for six days around the epoch), and in all years one that is at most one off.
C50 partial | C50_values_partial, C50_strings_partial, C50_numbers_partial, C50_booleans_partial, C50_dates_partial, C50_refuted, C50_naive_refuted | Strings longer than the keyword length are not found (C50_refuted), and naive datetimes are looked for in local time while texts are indexed as UTC (C50_naive_refuted). Proved for all other scalars, with what exactly each kind of term query matches.
C52 partial | C52_error, C52_type, C52_given_type, C52_strings, C52_booleans, C52_dates, C52_numbers_partial, C52_numbers_rounded_partial, C52_numbers_sides_partial, C52_refuted | Numbers are compared as doubles, so ints above 2**53 may be missed (C52_refuted). Proved in full for strings, booleans, dates, floats and smaller ints.
C65 partial | C65_id_query_partial, C65_found_partial, C65_refuted | Ids are compared without case and only up to the keyword length (C65_refuted). Proved: exactly which records are found.
C66 proved | C66_exists_query | For fields whose names are field names (not parsed types).
C53 proved | C53_winding, C53_reversed, C53_shapes, C53_dimensions | Over rational coordinates and exact sums (with floats: C117). Coordinates with more than two dimensions make the winding check raise ValueError (C53_dimensions).
C67 proved | C67_indexed, C67_geojson, C67_wkt, C67_not_wkt, C67_hint | shapely, pyproj and fastnumbers are parameters with stated assumptions (GeoLib.Sane).
C57 partial | C57_data_fields_partial, C57_parsed_fields_partial, C57_refuted | A document whose nested field names start with # may be counted twice for a path (C57_refuted, a consequence of C48_refuted). Proved in full for all other data, for data fields (with links) and parsed fields.
C59 partial | C59_calm_partial, C59_refuted, C59_refuted_single_ingest, C59_refuted_duplicates | The property is false of the code: ingest takes no lock, and a change worked out before a commit and written after it overwrites the committed version (C59_refuted; C59_refuted_single_ingest needs only one ingest and one commit). Proved for all schedules without the two races.
C68 partial | C68_exact_partial, C68_refuted | A value that changes to an equal one of another type, together with another change, changes the type in the older version too (C68_refuted; diff does not see the first, patch of the reverse diff keeps the new one). Proved if no two data given for a record hold equal but different scalars at one place.
C69 proved | C69_field_order | For geometry libraries for which the order of fields of GeoJSON does not matter.
C70 partial | C70_refuted, C70_first_sync_partial, C70_syncs_partial | Refuted: empty containers, and empty texts in lists, are lost (C47). Proved up to these (remainsDict) after one sync for all calls, and after any syncs under the conditions of C31; with exact types if no two data of a record hold equal but different scalars at one place.
C71 proved | C71_calls_return, C71_version | For one process without failures (see C09, C59 for others); strictly increasing times; streams whose ids do not span lookup batches (C14).
C72 partial | C72_order, C72_refuted, C72_strict_partial, C72_far_partial | Never out of order (all moments). Moments in different milliseconds may have the same timestamp (C72_refuted); not so if the later one is not a whole millisecond.
C73 partial | C73_refuted, C73_partial, C73_circles, C73_recent, C73_circles_recent | Refuted: 0.0 and -0.0 share an entry of the cache. Proved when not both occur, and the date formats are unambiguous (C64). C73_circles is for the cache of create_polygon_circle (coordinates are rational numbers there). C73_recent and C73_circles_recent say which entries the caches keep: the last ones used.
C74 partial | C74_refuted, C74_partial, C74_uncommitted, C74_each, C74_data, C74_answers | Refuted: a commit during the sync makes it index some of the newly committed records and not others, and the later sync then has nothing to do. Proved for any interleaving with writes that do not commit; and, when others do commit records (not options) during syncs, for every record that nobody ingests while a sync runs: all searches and queries find of it what they would if nobody had disturbed the syncs.
C75 proved | C75_histories, C75_committed_stays, C75_calls_return, C75_locked |
C76 partial | C76_refuted, C76_first_sync_partial, C76_syncs_partial, C76_recovery | Refuted: if the first commit of a database stops between the data and the options, sync() raises until options are committed. Proved if there are committed options, with the conditions of C70; and that release and commit repair it.
C77 partial | C77_refuted, C77_first_sync_partial, C77_syncs_partial, C77_exists_first_sync, C77_exists_syncs_partial, C77_id_partial | Refuted: when a record holds 1 and later True in the same place, the older version is indexed with True and found by term_query(field, True). Proved for exists_query after one sync, and for the other queries if no two data given for a record hold equal but different scalars at the same place, with the conditions of C70 for several syncs.
C78 partial | C78_refuted, C78_data_fields_partial, C78_data_fields_syncs_partial, C78_parsed_fields_partial, C78_parsed_fields_syncs_partial | Refuted by field names below the root that start with # (see C57). Proved without such names (and without names starting with _ for the parsed fields), with the conditions of C77.
C79 proved | C79_options, C79_versions, C79_stays, C79_stopped, C79_indexed | For clocks that increase and options as ParsingOptions can hold them. Calls that are stopped give one of the histories the specification allows.
C80 partial | C80_refuted, C80_first_sync_partial, C80_syncs_partial, C80_each_partial | Refuted: when a record holds 1 and later True in the same place, the older version is indexed with True, so options that change how 1 is read are not listed. Proved if no two data given for a record hold equal but different scalars at the same place and there is no NaN, with the conditions of C70 for several syncs; and all versions at which a record changes are listed under conditions on that record alone (C80_each_partial).
C81 proved | C81_schedules, C81_two_runs, C81_calls, C81_queries_partial | For writes that return and requests that timed out only if the server did not carry them out (otherwise C44_refuted). C81_queries_partial joins it with C77 under the conditions of C77.
C82 partial | C82_match, C82_stored_found, C82_first_sync_partial, C82_syncs_partial, C82_refuted | The analyzer of Elasticsearch is a parameter (any function from text to words); scores, fuzziness and other keyword arguments of match are not modelled. C82_refuted: the change of type of C68 makes an old version found by the words of the new one. Excluded in the partial theorems: equal but different scalars (1, True, 1.0) at the same place, and for later syncs pending data and updates that delete.
C83 partial | C83_places, C83_field_points, C83_has_geo, C83_copies, C83_points_or_shapes, C83_first_sync, C83_first_sync_typed, C83_syncs_partial, C83_refuted | C83_first_sync holds for all orderly histories, for geometry libraries that treat equal values alike (PlacesOfEqual). Shapely does not for a boolean beside a text (C112_booleans, C112_equal_refuted); for data without values that are equal but of different types C83_first_sync_typed holds for all libraries. For later syncs the conditions of C70 are needed: C83_refuted is the record changed and deleted between two syncs (C31). C83_places needs hints with different latitude fields, which the options builder ensures (C28).
C84 proved | C84_schedule, C84_alone, C84_others, C84_ingests | C84_schedule is about any lookups and writes, C84_alone, C84_others and C84_ingests about processes that go step by step through ingest. With common records it does not hold (C59).
C85 partial | C85_calendar, C85_read_back, C85_refuted, C85_datetime_partial, C85_date_partial, C85_term_partial, C85_found_partial | Refuted where strftime does not write years before 1000 with four digits (glibc): such datetimes are not indexed as dates. Proved for years written with four digits. Assumed: strptime reads ASCII texts as modelled (ReadsDates), for the directives %Y %m %d %H %M %S %f %z.
C86 partial | C86_before_partial, C86_failed_partial, C86_failures_partial, C86_each_index_partial, C86_returned_partial, C86_sync_partial, C86_refuted, C86_others_refuted | The full statement is C86_full. Elasticsearch refreshes the indices of one request one after another, so an archive and the latest index can be seen at different states (C86_refuted): each index is seen either as before or complete. A write_ops that gets no operations refreshes and resets all indices of Elasticsearch, also those that another sync has paused (C86_others_refuted). sync(resync=True) deletes the archives first, as documented.
C87 partial | C87_found_partial, C87_latest_partial, C87_refuted | Refuted: archive documents have no ids, so each sync adds its own (C87_full, C87_refuted). Proved: the latest index is exact, every search finds the same documents as after one sync, those from archives possibly more than once; exact if no operation is for an archive.
C88 partial | C88_commits_partial, C88_locked_partial, C88_kept_partial, C88_final_partial, C88_given_partial, C88_refuted, C88_two_refuted, C88_default_refuted | Refuted: a rollback of another process, two updates at the same time (both get the same version, one is never seen), and on a new database a commit that inserts the default options (C88_refuted, C88_two_refuted, C88_default_refuted). Proved: it holds if options were committed before, none are pending and the others only commit; AlreadyLocked leaves the options pending or committed; versions never vanish; options of a version are final when the call that made it returns; only given or default options are seen.
C89 partial | C89_stable_partial, C89_answers_partial, C89_each_partial, C89_history, C89_refuted, C89_deleted_refuted | Refuted: a record changed and then deleted between two syncs is found twice at its first version afterwards (C89_deleted_refuted, see C31), and so is one with True for 1 and new options (C89_refuted, see C68). Proved under the conditions of C70, and for each record under the conditions on that record alone (C89_each_partial); the data and options as of a past version never change (C89_history).
C90 proved | C90_each, C90_data, C90_queries, C129_each | The syncs also always succeed, whatever the records. C90_each compares with one sync of everything at the end; C90_data and C90_queries state it in terms of the calls, and C129_each does for all kinds of queries.
C91 proved | C91_metadata, C91_acquire, C91_release, C91_blocks, C91_by_hand_refuted | The condition about releasing by hand is needed: C91_by_hand_refuted shows a block whose end frees the lock of another process, because leaving a block deletes by lock id and not by who took it.
C92 proved | C92_search, C92_queries, C92_data, C92_answers | This bounds what C31, C70 and C89 refute: no condition about deletions is left, except where a document that should not be there is allowed.
C93 partial | C93_refuted, C93_same_partial, C93_iff_partial, C93_returns_partial, C93_forever_partial, C93_heights | Refuted by a float format that raises (with_float_format checks nothing), and by what refutes C63. C93_same_partial connects the model of syncs of the other properties (which have a value for exceptions of parse) with the code, in which the exception ends the sync. What a sync that raises has written before is not said here (C45, C74).
C94 partial | C94_refuted, C94_json, C94_requests_partial, C94_index, C94_raises, C94_stored, C94_document | Refuted by ids of deletions with quotes (as C58). Holds for all requests without deletions and for deletions of plain ids. How finite floats are written and read is a parameter with the condition that they are read as they were written; strings are sequences of characters (no lone surrogates, for which orjson raises).
C95 partial | C95_refuted, C95_rebuild, C95_first_sync_partial, C95_syncs_partial, C95_queries, C95_match, C95_exists | Refuted by an infinity. Otherwise as C70: equal data after a first sync, the same with all types without puns; what C47 says of empty values stays. All kinds of queries find the same documents as before the values went through JSON.
C96 proved | C96_result, C96_inputs | The values are Python values without cycles. This connects the two models of patch: what C01 to C03 say of patch on values holds for the program on objects.
C97 partial | C97_refuted, C97_resync_refuted, C97_stream, C97_hidden_partial, C97_again_partial, C97_archives_lost, C97_arcs, C97_repair_partial | Refuted: when somebody else refreshes the indices after the exception, the next sync takes the newest version it sees for the version of the indices and returns without the other records; and sync(resync=True) and resync_arcs() delete the archives before they write, so after an exception old versions are not found. Proved for sync() without refreshes by others (that searches see the same and that syncs go on raising), and what the others leave.
C98 proved | C98_documents, C98_initial, C98_same_types, C98_sync, C98_sharp | Mappings and dynamic templates of templates.py, with Elasticsearch's rules for new fields as functions.
C99 proved | C99_stored, C99_steps, C99_fits, C99_raises, C99_new, C99_sync | A stored record need not make the ingest raise: an int equal to a stored float is no change (see the example beside C99_new).
C100 proved | C100_fields, C100_no_places, C100_sync, C100_exact, C100_exact_no_places | The comment in the template says 'a maximum of around 500-600 fields': this is right only for data without places.
C101 partial | C101_fields_partial, C101_calls_partial, C101_syncs_partial, C101_stopped_partial, C101_stopped_syncs_partial, C101_refuted | Refuted in full: where a name below the root begins with '#', elements of lists are counted twice (C57). Holds where no such name begins with '#' or '_'.
C102 partial | C102_first_sync_partial, C102_syncs_partial, C102_calls, C102_floats_partial, C102_refuted, C102_quotes | Refuted in full: infinities come back as None, and ids with quotes make requests that cannot be read. Holds for what can be sent (64-bit ints, at most 443 fields, keyword lengths up to 8191, plain ids), with the conditions of C70 for more than one sync.
C103 partial | C103_first_sync_partial, C103_syncs_partial, C103_refuted | Refuted in full by equal scalars of different types (C77_refuted). Holds without these, if there are committed options; with the conditions of C70 for more than one sync.
C104 partial | C104_refuted, C104_sorted, C104_listed, C104_own_partial, C104_history | Refuted in full by names such as foo and foo-bar (as C46). C104_listed says which names are listed in all cases; C104_own_partial and C104_history are for names that are apart.
C105 partial | C105_refuted, C105_newest_partial, C105_syncs_partial, C105_clock | Refuted in full: 2**53 + 1 is read as 2**53. Holds for all versions up to 2**53; C105_clock: those of the clock are, up to the end of the year 9999. The other properties use the exact maximum, which is justified by this one.
C106 partial | C106_refuted, C106_document, C106_calls, C106_first_sync_partial, C106_syncs_partial | Refuted in full by equal but different scalars, as C77. C106_document and C106_calls: queries by entries and types find what queries by names find, which the other properties on queries use; so these hold for the indices of Elasticsearch as far as the data can be sent (C102).
C107 partial | C107_refuted, C107_calls, C107_first_sync_partial, C107_syncs_partial | Refuted in full by field names that start with '#' (C57). C107_calls: all these functions return on the indices of Elasticsearch what they return in the model of the other properties. The partial theorems state what they return from calls of the API, for data without NaN (versions and counts) or without names that start with '#' or '_' below the root (fields), as far as the data can be sent (C102).
C108 partial | C108_refuted, C108_meant, C108_raises, C108_read_partial, C108_default, C108_value | Refuted: a format in which a directive comes twice, such as %Y/%Y, makes strptime raise re.error, which is not a ValueError and ends the sync (C108_raises says exactly when). C108_meant: what is read was meant, for all formats. C108_read_partial: what is meant is read, for formats in which each number is followed by something that cannot be a part of it. C108_default: for the default formats in any order a text is read as a moment if and only if it is one for it, and at most one datetime is meant. C108_value connects the loop with the parser of the other properties.
C109 proved | C109_mutex, C109_ends, C109_lock, C109_raise | C109_mutex assumes that locks are released by hand only when no living process has them, as C20. C109_ends: at most 19 commands and one for each uncommitted document when the other processes stand still (update_many and delete_many are taken to go on as long as there are uncommitted documents). That the delete_one of a lock itself fails is taken as a crash.
C110 proved | C110_unique, C110_numbers, C110_none, C110_found, C110_ints, C110_bools, C110_dates | That fastnumbers reads ASCII texts this way is an assumption (ParseEnv.ReadsNumbers), met by a concrete reader in the examples. Numbers that are too large or too small for normal doubles and texts with other characters are not covered. C110_numbers says both directions; the grammar (Numeral) is a separate specification and the function that reads texts is proved to be sound and complete for it.
C111 proved | C111_text, C111_special, C111_none, C111_same, C111_ints, C111_digits, C111_back, C111_default, C111_like_ints, C111_found | str.format is modelled for the formats {0:.Pg} (assumed as ParseEnv.FormatsG); other formats stay a parameter. Doubles without the limits of the exponent, as in C54.
C112 partial | C112_unique, C112_hint, C112_indexed, C112_not_indexed, C112_has_geo, C112_first_sync, C112_booleans, C112_equal_refuted | Point and try_float are modelled for scalars: lists, texts with other characters or underscores, numbers beyond the normal doubles and the words for NaN and infinities are not (Value.Plain); that the libraries read so is assumed as GeoLib.Reads. C112_equal_refuted shows that what C83_first_sync assumes (PlacesOfEqual) is needed: True for 1 beside a text makes a difference, but ingest takes them as equal.
C113 proved | C113_text, C113_zero, C113_unique, C113_keeps, C113_json, C113_different, C113_typed, C113_plain | orjson is modelled for floats by what its algorithm is specified to give; that Elasticsearch reads the nearest double is assumed (jsonFloats.read). The limits of the exponents of doubles are not modelled. With C113 the conditions of C102 on floats fall away: C102_floats_partial.
C114 proved | C114_accepted, C114_new_index, C114_rejected, C114_exact, C114_sync, C114_ids, C114_refuted | The limits are defaults of Elasticsearch that the templates do not set. None, empty texts, NaN and infinities are sent as null in the unparsed field, which needs no object, so the rejection is of other values. C114_refuted is an ingest of a record that cannot be synced.
C115 partial | C115_refuted, C115_terms_partial, C115_negative_zero, C115_ranges_partial, C115_both_zeros, C115_search_refuted, C115_first_sync_partial, C115_syncs_partial | Refuted as stated: {"a": -0.0} is not found by term_query("a", 0), though -0.0 == 0. Proved: what terms and ranges match with both zeros, exactly; and that C77 holds for the searches with both zeros if there are no negative zeros in the data.
C116 partial | C116_refuted, C116_open, C116_names, C116_partial, C116_no_patterns, C116_sync, C116_sync_partial, C116_first_sync_partial | Refuted as stated: a valid name of 244 bytes makes the name of the latest index too long. Proved: exactly which names Elasticsearch takes; valid names of up to 243 bytes work with up to 100 archives; a sync raises exactly if one of the indices it leads to has a name that does not fit.
C117 partial | C117_refuted, C117_slivers, C117_partial, C117_dims, C117_grid, C117_geojson_partial | Refuted without a condition on the area: triangles some degrees long and 2**-46 degrees high are rejected although right, or accepted although wrong. Proved with the condition, and for coordinates on a grid without it. The limits of the exponent are not modelled.
C118 partial | C118_refuted, C118_partial, C118_new, C118_delete, C118_stored, C118_steps, C118_rollback | Refuted in full for every limit: data that MongoDB takes as a new record, but with fewer than five levels to spare, can be ingested and then not be deleted, as the diff holds the old data five levels deep. Proved for data with five levels to spare.
C119 partial | C119_refuted, C119_partial, C119_only, C119_stored, C119_versions, C119_commit, C119_blocked, C119_steps | Refuted in full for every limit: a record of 80 bytes that is changed again and again comes to a change that is refused. Proved for calls whose documents are within the limit.
C120 partial | C120_refuted, C120_same_partial, C120_returned, C120_committed, C120_seen, C120_data | Refuted in one point: if another process commits between the writes of an ingest, the records written before become visible at the earlier version of that commit (C120_refuted). Proved without restriction: everything is committed, with the ingested data, at a version not after the one returned (C120_returned). Proved if nobody else gives versions while the ingest runs: all changes have the version returned (C120_same_partial). The lock is released by hand only when nobody holds it, except in C120_committed and C120_data.
C121 partial | C121_refuted, C121_partial, C121_each, C121_arcs, C121_tidy, C121_alone | Refuted: a record that gets uncommitted changes before the cursor comes to it is skipped, after its archived versions have been deleted (C121_refuted). Proved for all records that are read, even if others commit changes of them meanwhile (C121_partial), with equality at all versions for those that nobody ingests meanwhile (C121_each), and for resync_arcs (C121_arcs). Not for deleted records (C32).
C122 partial | C122_reads, C122_kept_partial, C122_found, C122_refuted | Refuted: an ingest that has looked up a record with uncommitted data replaces the version that another process commits before the write (C122_refuted). Proved: histories stay readable (C122_reads), versions of records that had no uncommitted data at the start stay, as do those shown before the process that ingests the record begins or after it has written (C122_kept_partial), and what an ingest with commit returned for is found (C122_found).
C123 partial | C123_held_partial, C123_requests, C123_ahead, C123_refuted | Refuted for a buffer_multiplier of 0, which means no limit (C123_refuted); proved for all other options (C123_held_partial). One chunk more can be in memory, which the main task holds while it waits for room.
C124 proved | C124_ends, C124_returns, C124_held | A step is one command to MongoDB or one operation taken from the generator; that a bulk_write carries its operations out one by one, with those of others in between, is the model's assumption about MongoDB.
C125 proved | C125_shown, C125_any, C125_exact, C125_ingested, C125_writers, C125_syncs, C125_stopped | It says what is shown is true as of its version, not that it is the newest one: what can be missing or out of date is in C31, C74, C87 and C91. A sync reads the options before the records. Options that are committed while a sync runs are not in its documents.
C126 partial | C126_refuted, C126_last_partial, C126_unchanged_partial, C126_order_partial, C126_calls_partial, C126_queries_partial | Refuted in full (C126_refuted): nothing keeps two syncs from running at once. Both syncs are taken to see the same documents in the indices when they start. Archives may hold a document twice (C87). A resync repairs the indices (C32).
C127 proved | C127_read, C127_different, C127_stopped, C127_sized, C127_calls, C127_names, C127_size, C127_floats, C127_options, C127_int_witness, C127_nul_witness | BSON is modelled as its specification has it, with the types that the data has, and floats as IEEE 754 binary64; there is one NaN. The positions in diffs fit into 64 bits since they are those of lists in the data that was given. The ObjectId is left out of the bytes. The witnesses show why ints must fit and names must have no NUL.
C128 partial | C128_resync_partial, C128_arcs, C128_attempts, C128_later_partial, C128_refuted | Refuted: a record that was deleted after the last sync stays in the latest index and is still found (C32). Proved if the documents in the latest index are of records that exist now and have no uncommitted changes; for resync_arcs if the latest index is right. No record holds equal values of different types in the same place (C68); the conditions of C103 and C101 for versions and fields.
C129 proved | C129_now, C129_first, C129_syncs, C129_repaired, C129_each, C129_each_steps | C129_each and C129_each_steps (with calls that may be stopped half way) have conditions only about the record asked for. With the conditions of C70, C90, C101 and C128, which are in the statement; see there for what happens without them.
C130 proved | C130_ever, C130_first, C130_syncs, C130_repaired, C130_each, C129_each_steps | C130_each and C129_each_steps (with calls that may be stopped half way) have conditions only about the record asked for. With the conditions of C70, C90 and C128, which are in the statement; see there for what happens without them.
C131 proved | C131_isolated | The conditions on the record are those of C90; what happens without them is in C31, C70 and C92.
C132 proved | C132_truthful, C132_truthful_steps, C132_truthful_race | No condition on the records. Data is compared with == (and NaN is equal to NaN), since C03 and C68 refute more; the data is what remains of it after indexing (C47). C132_truthful_steps: also if calls are stopped half way. C132_truthful_race: also if others write and commit while the syncs run.
