{"claims": [
  {"property": "C01", "status": "proved", "theorems": ["Space.C01", "Space.C01_any", "Space.C01_succeeds"], "note": "Whole calls in any history and interleaved commits in calm histories; success for rows that fit."},
  {"property": "C02", "status": "partial", "theorems": ["Space.C02_violated", "Space.C02_partial", "Space.C02_covered_partial", "Space.C02_effect"], "note": "False as stated: an id can be reused after remove_branch, or overwritten through a stale handle (witnesses). Proved while some reference is at or above the id; one step changes the meaning of an id only by a commit that draws it when all references are below."},
  {"property": "C03", "status": "proved", "theorems": ["Space.C03_tidy", "Space.C03", "Space.C03_newId"], "note": "Any number of handles for whole-call commits with references changed through up-to-date handles (C03_tidy); one handle in any order (C03)."},
  {"property": "C04", "status": "partial", "theorems": ["Space.C04_effect", "Space.C04_files", "Space.C04_partial", "Space.C04_exact_partial", "Space.C04_sound", "Space.C04_succeeds", "Space.C04_violated_null", "Space.C04_violated_loss", "Space.C04_violated_not"], "note": "Exact effect on every layout, for every filter on index fields up to which files without matching rows are changed, and for filters that fit and are null on no row with the exact condition under which it is the stated one; the stated effect on layouts that lose no file; counterexamples for null rows, lost files and negated comparisons."},
  {"property": "C05", "status": "partial", "theorems": ["Space.C05_partial", "Space.C05_sound_partial", "Space.C05_violated_not", "Space.C05_violated_ne", "Space.C05_violated_nested", "Space.C05_violated_name", "Space.C05_violated_nan"], "note": "Proved for filters without not before a comparison and without != between two keys or between a float key and a literal, on schemas whose keys precede nested and record columns. Missing because false of the code: the other filters and schemas, five counterexamples proved. For every filter on plain columns and every schema, a filtered read returns only rows of the full read on which the filter is true, in order and no row more often (C05_sound_partial)."},
  {"property": "C06", "status": "partial", "theorems": ["Space.C06_partial", "Space.C06_exact_partial", "Space.C06_logical_partial", "Space.C06_violated", "Space.C06_violated_nan"], "note": "Proved for every stored snapshot of every reachable state and every value but NaN, when keys are preceded by one-leaf columns only; there the recorded values are moreover the least and the greatest of the file. False otherwise: the top-level column index is used as Parquet leaf index, and NaN is in no range; counterexamples proved."},
  {"property": "C07", "status": "partial", "theorems": ["Space.C07_partial", "Space.C07_effect", "Space.C07_violated", "Space.C07_violated_nan"], "note": "Full claim for rows without null and NaN in their keys; null keys are never inserted, NaN keys are inserted though they exist. C07_effect says for keys of every kind what a successful insert had and did, and which inserts fail."},
  {"property": "C08", "status": "partial", "theorems": ["Space.C08_effect", "Space.C08_files", "Space.C08_partial", "Space.C08_succeeds", "Space.C08_violated_loss", "Space.C08_violated_null", "Space.C08_violated_nan"], "note": "Exact effect on every layout for stored rows without null and NaN keys, with the exact condition under which it is the stated one, and for stored rows of every kind up to which files without matching rows are changed (C08_files); the stated effect on layouts that lose no file; counterexamples otherwise."},
  {"property": "C09", "status": "partial", "theorems": ["Space.C09_partial", "Space.C09_start", "Space.C09_violated", "Space.C09_violated_nan"], "note": "Invariant over all calm histories, where a key with NaN equals no key; violated when a branch is removed and recreated during an insert, and by NaN keys if they are taken as values."},
  {"property": "C10", "status": "partial", "theorems": ["Space.C10_partial", "Space.C10_growing_partial", "Space.C10_effect", "Space.C10_violated"], "note": "False for snapshot ids that are no longer reachable (witness); proved for branches, tags and reachable ids. C10_effect: of all ids, reachable or not, only the one the commit is given can read differently."},
  {"property": "C11", "status": "proved", "theorems": ["Space.C11"], "note": "Any history of whole-call commits with references changed through up-to-date handles."},
  {"property": "C12", "status": "partial", "theorems": ["Space.C12_partial", "Space.C12_effect", "Space.C12_violated", "Space.C12_split_violated"], "note": "Conflicts are detected for executions in which reference writers do not interleave and no branch is removed and re-created; the code misses an ABA change of the branch head and a commit landing between check and write (negations proved with witnesses). C12_effect: in every state a commit is refused exactly if the id of the stored head differs from the one at the start."},
  {"property": "C13", "status": "partial", "theorems": ["Space.C13_call", "Space.C13_partial", "Space.C13_kept_partial", "Space.C13_violated"], "note": "Every atomic commit is kept while no stale reference writer or split commit intervenes; the unrestricted claim is false (witnessed)."},
  {"property": "C14", "status": "proved", "theorems": ["Space.C14"], "note": "All options, versions and branches; errors included."},
  {"property": "C15", "status": "proved", "theorems": ["Space.C15", "Space.C15_create"], "note": "Crash at every point between file operations, with arbitrary unfinished new files; for every call and every part of a split mutation."},
  {"property": "C16", "status": "partial", "theorems": ["Space.C16_partial", "Space.C16_effect", "Space.C16_violated"], "note": "A creator that finds the storage fails and changes nothing. Two creators that both pass the check: the second destroys the storage of the first (proved); the check and the move are separate operations. C16_effect says exactly what a creator that passed the check does at any later time."},
  {"property": "C17", "status": "partial", "theorems": ["Space.C17_violated", "Space.C17_partial", "Space.C17_effect"], "note": "False through stale handles (witness); proved when the handle is up to date. C17_effect: for every handle, a returning call replaces the stored metadata by the handle's with the one reference changed, a raising one changes nothing."},
  {"property": "C18", "status": "proved", "theorems": ["Space.C18", "Space.C18_raises", "Space.C18_exact"], "note": "Any history of any number of handles. C18_exact: success exactly for newer descendants with logs at every commit. The diff is evaluated to its end right after the call."},
  {"property": "C19", "status": "partial", "theorems": ["Space.C19_partial", "Space.C19_keyed_partial", "Space.C19_count_partial", "Space.C19_bound", "Space.C19_violated_keys", "Space.C19_violated_loss"], "note": "Holds for calm histories in which no delete loses a file, no append_parquet lands and only reachable snapshots are tagged, if keys are unique in the versions between (always so with insert/upsert/delete of rows without NaN keys only). Without unique keys the diff still gives the exact number of rows of every key, and where files are lost an upper bound. False for shared keys and for deletes that lose files."},
  {"property": "C20", "status": "proved", "theorems": ["Space.C20"], "note": "Any history."},
  {"property": "C21", "status": "partial", "theorems": ["Space.C21_partial", "Space.C21_commit_partial", "Space.C21_parquet", "Space.C21_violated"], "note": "All commits but those of append_parquet, which writes no change log; diffs across it raise."},
  {"property": "C22", "status": "proved", "theorems": ["Space.C22", "Space.C22_succeeds", "Space.C22_zero"], "note": "Any parallelism, input, list of sources and schedule of actors; C22_succeeds: rows that fit are appended if the parallelism is not zero; C22_zero: with zero nothing changes."},
  {"property": "C23", "status": "partial", "theorems": ["Space.C23_partial", "Space.C23_effect", "Space.C23_rows_partial", "Space.C23_status", "Space.C23_violated", "Space.C23_violated_loss"], "note": "Same rows on layouts where every manifest has at most one file to cut, which keeps a row or is alone, for every filter on index fields; exact rows left by the Ray delete on every layout and the exact condition under which they are the right ones; statuses; counterexamples (rows back and doubled; rows lost) for other layouts."},
  {"property": "C24", "status": "proved", "theorems": ["Space.C24"], "note": "Ray's block order and regrouping are arbitrary; a dataset without read tasks is taken to be empty; repartition(0) may raise (parameter)"},
  {"property": "C25", "status": "proved", "theorems": ["Space.C25", "Space.C25_files", "Space.C25_none"], "note": "any positive number of streams; zero streams raise ZeroDivisionError (C25_none)"},
  {"property": "C26", "status": "partial", "theorems": ["Space.C26_partial", "Space.C26_violated_skip", "Space.C26_violated_branch", "Space.C26_violated_stale", "Space.C26_violated_keys", "Space.C26_violated_shift", "Space.C26_stuck"], "note": "Proved for every history of source and view in which refreshes are undisturbed: consecutive source ids, commits that record changes, distinct keys, one view object, row-wise key-keeping views. False otherwise, five witnesses."},
  {"property": "C27", "status": "partial", "theorems": ["Space.C27_partial", "Space.C27_violated"], "note": "Half proved for every state: an up-to-date refresh changes nothing. The other half is false: it always raises UserInputError."},
  {"property": "C28", "status": "partial", "theorems": ["Space.C28_ids", "Space.C28_types_partial", "Space.C28_open_partial", "Space.C28_violated"], "note": "Ids: every field at every level gets 0,1,2,... depth first (all nested schemas). Names, order and types are kept up to nullability; false in full because list and struct fields marked not null become nullable."},
  {"property": "C29", "status": "partial", "theorems": ["Space.C29_partial", "Space.C29_exact_partial", "Space.C29_physical_partial", "Space.C29_agree", "Space.C29_violated"], "note": "Names, order, types (as Arrow compares them, without not-null marks) and top-level ids survive in logical and physical form for every supported nested schema. Missing: not-null marks are lost (C29_violated). External: JSON/TFDS encoding of extension types assumed to round trip."},
  {"property": "C30", "status": "proved", "theorems": ["Space.C30", "Space.C30_distinct", "Space.C30_create"], "note": "Validation succeeds exactly for acceptable schemas; create additionally requires every nested type to be storable."},
  {"property": "C31", "status": "proved", "theorems": ["Space.C31"], "note": "Both directions: addresses that exist give their bytes position by position, an address that does not exist makes the read raise."},
  {"property": "C32", "status": "partial", "theorems": ["Space.C32_partial", "Space.C32_source_partial", "Space.C32_distinct_partial", "Space.C32_sorted_partial", "Space.C32_get", "Space.C32_bounds", "Space.C32_arrow", "Space.C32_arrow_many", "Space.C32_violated_order", "Space.C32_violated_repeated"], "note": "Every requested address yields its record, grouped by file; order and repetition are preserved only for address lists that are distinct and sorted per file. The full claim is false: order and repeats are lost (C32_violated_order, C32_violated_repeated)."},
  {"property": "C33", "status": "proved", "theorems": ["Space.Paths.C33_resolves", "Space.Paths.C33_moved", "Space.Paths.C33_files", "Space.Paths.C33_entry"], "note": "On character lists with posixpath written out; symbolic links not modelled."},
  {"property": "C34", "status": "partial", "theorems": ["Space.C34_parquet_partial", "Space.C34_records_partial", "Space.C34_parquet_succeeds", "Space.C34_records_succeeds", "Space.Paths.C34_resolves_partial", "Space.Paths.C34_relative", "Space.Paths.C34_violated"], "note": "False for relative patterns: the stored name is joined with the location when read. Holds for absolute names; matched Parquet files must fit the schema (the code does not check it). Loads of files that fit succeed (C34_parquet_succeeds, C34_records_succeeds)."},
  {"property": "C35", "status": "partial", "theorems": ["Space.C35_partial", "Space.C35_effect", "Space.C35_atleast_partial", "Space.C35_violated", "Space.C35_violated_ray"], "note": "Holds in calm histories whose deletes and upserts lose no file. In general each mutation changes the count by what it is meant to add and remove (C35_effect), so that the count is at least the number of rows read unless a Ray delete doubles rows; false after a delete that loses a file (4 rows counted, none read) and after a Ray delete (4 counted, 10 read)."},
  {"property": "C36", "status": "partial", "theorems": ["Space.C36_partial", "Space.C36_files_partial", "Space.C36_effect", "Space.C36_violated"], "note": "Holds in calm histories of appends, inserts, loads, and of deletes and upserts that change every file of the manifests they look into; false after a delete that looks at an unchanged file. C36_files_partial says so with the sizes of the files themselves. C36_effect gives, for every mutation on every layout, the exact error it adds to both byte counts."},
  {"property": "C37", "status": "proved", "theorems": ["Space.C37_concat", "Space.C37_groups"], "note": ""},
  {"property": "C38", "status": "partial", "theorems": ["Space.C38_partial", "Space.C38_refs", "Space.C38_violated"], "note": "Row equality for all batch sizes and all kinds of read, batch bounds for reads that resolve record fields. False for reference reads, which yield whole files (counterexample); C38_refs says exactly what their batches are."},
  {"property": "C39", "status": "proved", "theorems": ["Space.C39"], "note": "For every filter, version and batch size, errors included."},
  {"property": "C40", "status": "proved", "theorems": ["Space.C40_addTag", "Space.C40_addBranch", "Space.C40_removeTag", "Space.C40_removeBranch"], "note": "Exact success conditions, result and effect."},
  {"property": "C41", "status": "partial", "theorems": ["Space.C41_violated", "Space.C41_partial", "Space.C41_effect"], "note": "False away from main: the code always uses main's snapshot (witness). C41_effect says which snapshot a new branch or tag refers to for every handle."},
  {"property": "C42", "status": "proved", "theorems": ["Space.C42", "Space.C42_same", "Space.C42_succeeds", "Space.C42_join"], "note": "Every view a user can build and materialize loads back as the same view, also after the storage was moved. Every chain of maps and filters has a plan when random ids do not repeat; a join has none, as in the code."},
  {"property": "C43", "status": "partial", "theorems": ["Space.C43_partial", "Space.C43_datasets_partial", "Space.C43_view", "Space.C43_returns", "Space.C43_violated", "Space.C43_violated_null", "Space.C43_violated_udf", "Space.C43_violated_version"], "note": "C43_partial: for every pair of source histories, every join of datasets or of transforms that keep the key and its field id, every selection of fields, reference reads and every partition function that splits ranges, a join read that returns gives the inner join of what its inputs read. C43_view: exactly what View.join builds and when it refuses; C43_datasets_partial: the two together, for two datasets. C43_returns: when it returns. False in general: disjoint key ranges give a None block (C43_violated), a manifest without keys raises TypeError (C43_violated_null), map_batches renumbers the key so that the range comes from another column (C43_violated_udf), self-joins ignore the version (C43_violated_version)."},
  {"property": "C44", "status": "partial", "theorems": ["Space.C44_partial", "Space.C44_mv_partial", "Space.C44_violated", "Space.C44_violated_new", "Space.C44_violated_join"], "note": "for views that do not change on which rows the filter is true; false otherwise because the filter is pushed into the source below the functions C44_violated_join: joins ignore the filter."},
  {"property": "C45", "status": "proved", "theorems": ["Space.C45", "Space.C45_refused", "Space.C45_create"], "note": "Serialise then deserialise gives the original for every field with a round-tripping serializer; unknown fields refused."},
  {"property": "C46", "status": "proved", "theorems": ["Space.C46"], "note": "Each file and batch may be opened at a different later state."},
  {"property": "C47", "status": "proved", "theorems": ["Space.C47"], "note": "All snapshots in the stored metadata; files never change."},
  {"property": "C48", "status": "proved", "theorems": ["Space.C48"], "note": "For any stored metadata of a reachable system."},
  {"property": "C49", "status": "partial", "theorems": ["Space.C49_created", "Space.C49_materialized", "Space.C49_dataset", "Space.C49_source", "Space.C49_view_partial", "Space.C49_lists_partial", "Space.C49_listed_partial", "Space.C49_missing", "Space.C49_nodir", "Space.C49_violated", "Space.C49_violated_cwd"], "note": "Created datasets and views are returned at their location and load by name after any further steps, a name is reported as not found exactly if nothing is there, and listing is exact for direct children. False for names with a slash (created and loadable, not listed) and for views on datasets with a relative location opened from another working directory. C49_source: a dataset found again as the source of a view has the schema, keys and record fields it was created with."},
  {"property": "C50", "status": "partial", "theorems": ["Space.C50_violated", "Space.C50_partial", "Space.C50_report"], "note": "Reload sees the last committed state; the reported flag is true spuriously after an own commit (witness). C50_report says exactly when a change is reported."},
  {"property": "C51", "status": "partial", "theorems": ["Space.C51_partial", "Space.C51_runs", "Space.C51_delete", "Space.C51_upsert", "Space.C51_violated"], "note": "Every sequence of append, insert, upsert, delete, tag and branch calls on one handle agrees with a small table of versions in memory (Verif/Memory.lean), in results and in all reads of any version. Partial: deletes whose filter is null on a row, and deletes and upserts on layouts where files get lost, are excluded (C51_violated shows they differ; C51_delete and C51_upsert show the condition on layouts is exact); record columns must be last."},
  {"property": "C52", "status": "proved", "theorems": ["Space.C52", "Space.C52_int32"], "note": "Every stored version of every history; hypotheses are the bounds named by the property: bytes counted per value, batch size, record file size limit, size of user record files."},
  {"property": "C53", "status": "partial", "theorems": ["Space.C53_partial", "Space.C53_refused", "Space.C53_violated"], "note": "False of the code when a record field precedes an index field: every such append is refused (C53_refused, C53_violated). Holds when record fields come last and keys precede nested columns."},
  {"property": "C54", "status": "proved", "theorems": ["Space.C54"], "note": "Record manifests list exactly the record files the append wrote, with right field id, count and bytes; for whole calls in any history and split calls in calm histories."},
  {"property": "C55", "status": "proved", "theorems": ["Space.C55", "Space.C55_keys"], "note": "All created schemas with distinct names."},
  {"property": "C56", "status": "proved", "theorems": ["Space.C56"], "note": "All schemas, record field lists and selections."},
  {"property": "C57", "status": "proved", "theorems": ["Space.C57"], "note": "for row-wise functions that do not raise; reads without rows must not fail in repartition(0)"},
  {"property": "C58", "status": "partial", "theorems": ["Space.C58_partial", "Space.C58_upsert_partial", "Space.C58_effect", "Space.C58_files", "Space.C58_insert_effect", "Space.C58_violated_nan"], "note": "As C07 and C08: rows without null and NaN keys; upserts for layouts on which the delete loses no file (see C08_violated_loss), and their exact effect on every layout and for stored keys of every kind; what inserts do with keys of every kind."},
  {"property": "C59", "status": "proved", "theorems": ["Space.C59", "Space.C59_origin", "Space.C59_listed"], "note": "Every Parquet index file put by any step of any handle has a row; for whole histories an empty one was there before or is the user's; so no head lists one unless the user loaded one."},
  {"property": "C60", "status": "partial", "theorems": ["Space.C60_partial", "Space.C60_answers", "Space.C60_refresh_succeeds", "Space.C60_refresh_partial", "Space.C60_violated_stale", "Space.C60_violated_torn", "Space.C60_violated_removed", "Space.C60_violated_refresh"], "note": "Proved for all interleavings in which commits are atomic, tags and branches are changed by up-to-date handles, no branch is removed under a running mutation on it, and deletes, upserts and refreshes meet conditions under which no row is lost (for deletes and upserts the exact ones of C04, C08, C23). Each condition on interleavings is shown to be needed by a counterexample. Answers are compared for all calls except switching branches; a transaction of a refresh must delete nothing or some key that is there, else it may fail (C60_violated_refresh)."},
  {"property": "C61", "status": "proved", "theorems": ["Space.C61"], "note": "For every reachable system, every handle that begins a mutation on an existing branch and every run of tidy steps in between that does not remove the branch: the commit returns FAILED iff the run contains a commit to that branch, and otherwise SUCCEEDED or SKIPPED, according to whether there is a patch; it never raises."},
  {"property": "C62", "status": "proved", "theorems": ["Space.C62", "Space.C62_kept"], "note": "C62: the files put in place in any step, in order, are each absent before and named after their kind, except that the last may be the entry point, naming a metadata file in place. C62_kept: content other than that of the entry point never changes in any history."},
  {"property": "C63", "status": "partial", "theorems": ["Space.C63_partial", "Space.C63_read_partial", "Space.C63_violated_delete", "Space.C63_violated_load"], "note": "Proved for calm histories in which Ray deletes rewrite at most one file per manifest and loads of record files are given files not in use, each once; false otherwise (two counterexamples)."},
  {"property": "C64", "status": "partial", "theorems": ["Space.C64_refused", "Space.C64_arrow", "Space.C64_external", "Space.C64_array_partial", "Space.C64_violated_order", "Space.C64_violated_count"], "note": "Proved in full for sources that keep an address table and for given addresses; for the default source on one field the elements are the column up to order if rows share no record; order and number are false (two counterexamples)."},
  {"property": "C65", "status": "partial", "theorems": ["Space.C65_returns_partial", "Space.C65_rows_partial", "Space.C65_source", "Space.C65_violated"], "note": "Joins of datasets, as in C43. False if a record field is listed twice: C65_violated; otherwise proved."},
  {"property": "C66", "status": "partial", "theorems": ["Space.C66_effect", "Space.C66_partial", "Space.C66_violated"], "note": "Exact growth of the record bytes for every mutation; equal to the bytes of the listed record files in every calm history without loads of record files. False after append_array_record, which counts files that no manifest lists (C66_violated)."},
  {"property": "C67", "status": "partial", "theorems": ["Space.C67_partial", "Space.C67_not"], "note": "Proved for filters built by and/or from comparisons of columns and literals other than NaN, without != between two keys, on schemas whose keys precede nested and record columns. Missing: not and != between keys, for which files that match are skipped (C05_violated_not, C05_violated_ne), and keys after nested columns (C05_violated_nested). C67_not: for every filter, not opens none of the files that the filter opens, unless both open all."},
  {"property": "C68", "status": "partial", "theorems": ["Space.C68_partial", "Space.C68_stored_partial"], "note": "keys that are plain columns before the first nested column; otherwise statistics and sizes of other leaves are recorded, see C06_violated. C68_stored_partial: in all histories every row of every stored manifest describes the file it names."},
  {"property": "C69", "status": "proved", "theorems": ["Space.Disk.C69", "Space.Disk.C69_read", "Space.Disk.C69_whole", "Space.Disk.C69_ends", "Space.Disk.C69_parse", "Space.Disk.C69_collision"], "note": "Assumes that writers of one file draw different random ids; C69_collision shows that this is needed."},
  {"property": "C70", "status": "partial", "theorems": ["Space.LazyImport.C70_partial", "Space.LazyImport.C70_violated", "Space.LazyImport.C70_violated_loaded"], "note": "Proved for lookups of attributes that are not names in the import statement, with all blocks before the first use; false otherwise, two witnesses."},
  {"property": "C71", "status": "partial", "theorems": ["Space.C71_partial", "Space.C71_filter", "Space.C71_violated"], "note": "All reads without a filter. Missing: with a filter the numbers are wrong (C71_violated); C71_filter says what they are: bounds from above, exact just when the filter is true of all rows of the opened files."},
  {"property": "C72", "status": "partial", "theorems": ["Space.C72_partial", "Space.C72_rows", "Space.C72_violated"], "note": "Proved for whole calls and one-step commits; false when another commit falls between the check and the write."},
  {"property": "C73", "status": "partial", "theorems": ["Space.C73_partial", "Space.C73_main", "Space.C73_violated"], "note": "False of 'main', which no read or diff accepts as a version (C73_main, C73_violated).  Proved for all listed names, all reachable states."},
  {"property": "C74", "status": "partial", "theorems": ["Space.C74_partial", "Space.C74_violated", "Space.C74_violated_read", "Space.C74_join", "Space.C74_over_partial"], "note": "False of filters with input_fields.  Proved for all chains without such filters, on datasets and on joins, and for joins."},
  {"property": "C75", "status": "partial", "theorems": ["Space.C75_partial", "Space.C75_again", "Space.C75_violated", "Space.C75_join_partial", "Space.C75_violated_join", "Space.C75_features_partial"], "note": "False of transforms, of joins with lists that do not name the key, and of feature_fields with locations."},
  {"property": "C76", "status": "proved", "theorems": ["Space.C76", "Space.C76_rows", "Space.C76_refused"], "note": "For functions that work row by row and chains that ask for columns their input has; reads with a list of fields or of addresses raise (C76_refused)."},
  {"property": "C77", "status": "partial", "theorems": ["Space.C77_partial", "Space.C77_sum", "Space.C77_raised", "Space.C77_violated"], "note": "Proved for every call that returns; a call that raises keeps the transactions it has committed but returns no results for them (counterexample), and C77_raised says what it leaves behind."},
  {"property": "C78", "status": "proved", "theorems": ["Space.C78", "Space.C78_gone", "Space.C78_others"], "note": "whole calls; a commit with others in between is C61"},
  {"property": "C79", "status": "partial", "theorems": ["Space.C79_partial", "Space.C79_columns", "Space.C79_violated"], "note": "False of filters on a column that has a struct or record field before it: building the manifest filter raises KeyError (C79_violated). Proved for all other filters, all versions, all options and all reachable states, as an equivalence; unknown columns exactly (C79_columns)."},
  {"property": "C80", "status": "partial", "theorems": ["Space.C80_partial", "Space.C80_staged_partial", "Space.C80_delete_partial", "Space.C80_upsert_partial", "Space.C80_ray_partial", "Space.C80_refresh_partial", "Space.C80_skipped", "Space.C80_violated"], "note": "False as stated: a delete that keeps no row of the files it changes writes a manifest for the files it does not change and does not add it (C80_violated). Proved for all mutations otherwise: after any call that succeeded each new file is in use by the new version, the only exception being index manifests after mutations that delete (C80_partial); the same for the files put in place by mutations whose steps interleave with those of others (C80_staged_partial); for local and Ray deletes, upserts and refreshes without exception on layouts on which no file is lost (C80_delete_partial, C80_ray_partial, C80_upsert_partial, C80_refresh_partial); skipped mutations leave the files as they were (C80_skipped)."},
  {"property": "C81", "status": "partial", "theorems": ["Space.C81_delete", "Space.C81_insert_partial", "Space.C81_upsert_partial", "Space.C81_violated_ray", "Space.C81_violated_nan", "Space.C81_violated_upsert"], "note": "For all filters, layouts and later times: a repeated local delete and a repeated insert do not take effect and change nothing, a repeated upsert leaves the same rows. Missing, because false of the code: deletes by Ray as the first run (C81_violated_ray), keys with NaN (C81_violated_nan, C81_violated_upsert)."},
  {"property": "C82", "status": "partial", "theorems": ["Space.C82_partial", "Space.C82_violated_null", "Space.C82_violated_not"], "note": "For filters that fit the schema and are false of the rows there were: exact, on every layout, for the local and the Ray delete. False where the filter is null on a row there was, and for negated comparisons, where the pruning skips files with rows to delete."},
  {"property": "C83", "status": "partial", "theorems": ["Space.C83_partial", "Space.Demo.C83_violated"], "note": "Proved for histories with atomic commits and references written by up-to-date handles, with any number of handles and removal of other branches; false otherwise, witness C83_violated."},
  {"property": "C84", "status": "partial", "theorems": ["Space.C84_rows_partial", "Space.C84_loaded", "Space.C84_partial", "Space.C84_violated_stale", "Space.C84_violated_delete", "Space.C84_violated_load"], "note": "Proved for handles that are up to date, the second part without Ray deletes that rewrite two files of one manifest and without loads of files in use. False otherwise: a handle that is not up to date names old files (C84_violated_stale), such a Ray delete lists a file twice (C84_violated_delete), so does append_parquet of a file twice (C84_violated_load)."},
  {"property": "C85", "status": "proved", "theorems": ["Space.C85", "Space.C85_records", "Space.C85_ray", "Space.C85_rayFrom", "Space.C85_ray_records", "Space.C85_rayFrom_records", "Space.C85_delete", "Space.C85_rayDelete", "Space.C85_insert", "Space.C85_rayInsert", "Space.C85_upsert", "Space.C85_refresh", "Space.C85_insert_records", "Space.C85_rayInsert_records", "Space.C85_refresh_records", "Space.C85_delete_records"], "note": "How a successful append divides its tables into row groups, files and record files, for all tables, limits and size functions; the same for each actor of a Ray append, insert, upsert or refresh, for all schedules, and for what a delete, Ray delete, upsert or refresh writes back; an insert or upsert of the local runner writes one file, and one record file per record field."},
  {"property": "C86", "status": "partial", "theorems": ["Space.C86_partial", "Space.C86_exact_partial", "Space.C86_upsert_partial", "Space.C86_refresh_partial", "Space.C86_ray_partial", "Space.C86_violated"], "note": "Full statement false: a delete that removes all rows of some files and cuts none loses other files of the same manifests (C86_violated). Proved for filters that fit the schema and layouts without that loss, for local and Ray deletes, for upserts and for the transactions of refreshes; rows on which the filter is null may or may not cause a rewrite."},
  {"property": "C87", "status": "partial", "theorems": ["Space.C87_rows_partial", "Space.C87_order_partial", "Space.C87_or_partial", "Space.C87_violated_loss", "Space.C87_violated_null"], "note": "For filters that fit the schema and are null on no row, on layouts on which deletes lose nothing: two deletes, local or by Ray, leave the rows on which neither filter is true, so their order does not matter and one delete by the disjunction does the same. False of the code on other layouts (C87_violated_loss) and where a filter is null on a row (C87_violated_null)."},
  {"property": "C88", "status": "partial", "theorems": ["Space.C88_rows_partial", "Space.C88_order_partial", "Space.C88_one_partial", "Space.C88_violated_loss", "Space.C88_violated_nan"], "note": "For keys without null and NaN, on layouts on which an upsert loses no row: two upserts, local or by Ray, leave what the later-wins rule says, in either order if the keys are disjoint, and one upsert of all does the same. False of the code on other layouts (C88_violated_loss) and for NaN keys (C88_violated_nan)."},
  {"property": "C89", "status": "partial", "theorems": ["Space.C89_appends", "Space.C89_appends_order", "Space.C89_appendDelete_partial", "Space.C89_deleteAppend_partial", "Space.C89_order_partial", "Space.C89_violated"], "note": "The claims about appends are proved in full. Those about an append and a delete are false where a delete loses rows (C89_violated); proved for filters that fit the schema and are null on no row, on layouts without that loss, local and Ray."},
  {"property": "C90", "status": "partial", "theorems": ["Space.C90_upsertDelete_partial", "Space.C90_deleteUpsert_partial", "Space.C90_order_partial", "Space.C90_needless_partial", "Space.C90_appendUpsert_partial", "Space.C90_upsertAppend_partial", "Space.C90_appendOrder_partial", "Space.C90_violated"], "note": "False where a delete or an upsert loses rows (C90_violated); proved for keys without null and NaN, filters that fit the schema and are null on no row, on layouts without that loss, local and Ray."},
  {"property": "C91", "status": "partial", "theorems": ["Space.C91_inserts_partial", "Space.C91_inserts_order_partial", "Space.C91_upsert_partial", "Space.C91_deleteInsert_partial", "Space.C91_replace_partial", "Space.C91_insertDelete_partial", "Space.C91_violated_loss", "Space.C91_violated_nan"], "note": "False for NaN keys and where a delete loses rows; the claims about inserts alone are proved on every layout for keys without NaN, those with a delete also for filters that fit the schema and are null on no row, on layouts without that loss."},
  {"property": "C92", "status": "partial", "theorems": ["Space.C92_gone_partial", "Space.C92_partial", "Space.C92_violated_loss", "Space.C92_violated_null", "Space.C92_violated_ray"], "note": "False where a delete loses rows, for filters null on a row, and for some layouts with Ray (witnesses); that nothing is shown afterwards is proved for every local delete by a filter that fits the schema, the whole claim for filters null on no row on layouts without loss, local and Ray."},
  {"property": "C93", "status": "partial", "theorems": ["Space.C93_partial", "Space.C93_violated_nan"], "note": "Proved on every layout, local and Ray, for keys without null and NaN and filters that fit the schema; false for NaN keys (C93_violated_nan)."},
  {"property": "C94", "status": "partial", "theorems": ["Space.C94_append_partial", "Space.C94_insert_partial", "Space.C94_upsert_partial", "Space.C94_violated_loss"], "note": "False where a delete or an upsert loses rows (C94_violated_loss); proved for keys without null and NaN, filters that fit the schema and are null on no row, on layouts without that loss, local and Ray."},
  {"property": "C95", "status": "partial", "theorems": ["Space.C95_partial", "Space.C95_violated"], "note": "False with not, for which files are skipped wrongly (C95_violated); proved for all filters that fit the schema, every version, every reachable state."},
  {"property": "C96", "status": "partial", "theorems": ["Space.C96_add_partial", "Space.C96_load", "Space.C96_delete_sound", "Space.C96_delete_partial", "Space.C96_upsert_partial", "Space.C96_refresh_partial", "Space.C96_violated"], "note": "False for deletes by filters that are null on rows (C96_violated); proved on every layout, local and Ray, for filters that fit the schema and are null on no row and keys without null and NaN; C96_delete_sound bounds what the diff lists for the other filters."}
]}
