{"id": "C01", "title": "Append adds exactly the given rows", "statement": "After a successful append (or append_from) of any sequence of batches, reading the branch returns the rows it returned before followed by exactly the appended rows, in order, with every value unchanged, including values of record fields that are stored in separate record files. It does not matter how the input is cut into batches or where the size thresholds make the writer cut row groups, index files and record files.", "quantifier": "every schema with record fields last, every list of batches, every pair of size functions and thresholds, every prior well-formed storage state", "why_tests_cant": "The thresholds, batch cuts and byte sizes interact; a test fixes one data set and one threshold, the claim is over all of them.", "anchors": ["python/src/space/core/ops/append.py: LocalAppendOp", "python/src/space/core/ops/read.py: FileSetReadOp", "python/src/space/core/storage.py: Storage.commit", "python/src/space/core/runners.py: LocalRunner.append"]}
{"id": "C02", "title": "A committed snapshot id always reads the same data", "statement": "Once read(version=n) returns some rows, it returns the same rows after any later sequence of mutations, tag, branch and reload operations.", "quantifier": "every history of operations and every snapshot id that ever existed", "why_tests_cant": "Needs all continuations of all histories; tests check a handful of versions after one or two commits.", "anchors": ["python/src/space/core/storage.py: Storage.__init__ (_max_snapshot_id)", "python/src/space/core/storage.py: Storage.commit", "python/src/space/core/storage.py: Storage._remove_reference"]}
{"id": "C03", "title": "Snapshots still reachable from a branch or tag are never changed", "statement": "The rows of every snapshot that is the head of main, of a branch or of a tag, or an ancestor of one, never change while it stays reachable, and the id given to a new commit is larger than all of them.", "quantifier": "every history of operations on one handle", "why_tests_cant": "Invariant over unbounded histories with branch creation and removal.", "anchors": ["python/src/space/core/storage.py: Storage.commit, _next_snapshot_id, __init__", "python/src/space/core/proto/metadata.proto: Snapshot"]}
{"id": "C04", "title": "Delete removes exactly the matching rows", "statement": "After delete(f) succeeds, the branch reads as the previous rows with exactly the rows for which f is true removed, other rows unchanged and in the same multiset; rows for which f is false or null stay.", "quantifier": "every filter, every storage state, every layout of rows over files and manifests, including columns with nulls", "why_tests_cant": "The outcome depends on how rows are spread over files and manifests and on three-valued logic; a test covers a single layout.", "anchors": ["python/src/space/core/ops/delete.py: FileSetDeleteOp.delete", "python/src/space/core/ops/append.py: LocalAppendOp.finish", "python/src/space/core/storage.py: Storage._patch_manifests"]}
{"id": "C05", "title": "Reading with a filter equals filtering a full read", "statement": "read(filter=f) returns exactly the rows of read() on which f is true, in the same order: skipping index files by their manifest min/max statistics never loses a row.", "quantifier": "every filter expression, every set of files and statistics, every row", "why_tests_cant": "Pruning soundness is a statement over all expressions and all data; tests compare the printed form of a few rewritten filters.", "anchors": ["python/src/space/core/manifests/falsifiable_filters.py: build_manifest_filter", "python/src/space/core/manifests/index.py: read_index_manifests", "python/src/space/core/storage.py: Storage.data_files", "python/src/space/core/ops/read.py: FileSetReadOp"]}
{"id": "C06", "title": "Manifest min/max bound every primary key value of the file", "statement": "For each index file listed in a manifest and each primary key, every non-null value stored in the file lies between the recorded minimum and maximum.", "quantifier": "every file, every split into row groups, every schema accepted by create", "why_tests_cant": "Depends on the schema shape and on every split into row groups.", "anchors": ["python/src/space/core/manifests/index.py: _FieldStats.merge, IndexManifestWriter.write", "python/src/space/core/schema/arrow.py: field_id_to_column_id_dict"]}
{"id": "C07", "title": "Insert is all or nothing on primary keys", "statement": "insert(rows) fails and changes nothing visible if two of the given rows share a primary key or any given key already exists on the branch; otherwise it appends exactly the rows.", "quantifier": "every input table, every storage state", "why_tests_cant": "Needs the duplicate check to be exact for every data layout, which relies on pruning soundness.", "anchors": ["python/src/space/core/ops/insert.py: LocalInsertOp", "python/src/space/core/ops/utils.py: primary_key_filter", "python/src/space/core/runners.py: LocalRunner.insert"]}
{"id": "C08", "title": "Upsert overwrites by primary key", "statement": "After upsert(rows) the branch reads as the old rows whose primary key is not among the given rows, plus the given rows.", "quantifier": "every input table without duplicate keys, every storage state", "why_tests_cant": "Combines delete and append for all layouts.", "anchors": ["python/src/space/core/ops/insert.py: LocalInsertOp._upsert", "python/src/space/core/ops/delete.py: FileSetDeleteOp", "python/src/space/core/ops/utils.py: merge_patches"]}
{"id": "C09", "title": "Primary keys stay unique", "statement": "If the primary keys on a branch are unique, they stay unique after any sequence of insert, upsert and delete operations.", "quantifier": "every history of insert/upsert/delete", "why_tests_cant": "Invariant over unbounded histories.", "anchors": ["python/src/space/core/ops/insert.py: LocalInsertOp", "python/src/space/core/ops/delete.py"]}
{"id": "C10", "title": "Branches are isolated", "statement": "A mutation committed on one branch changes what that branch reads and nothing else: main, every other branch, every tag and every snapshot id read as before.", "quantifier": "every storage state, every branch, every patch", "why_tests_cant": "Claim about all other versions for all states.", "anchors": ["python/src/space/core/storage.py: Storage.commit, set_current_branch, snapshot"]}
{"id": "C11", "title": "Tags are immutable aliases", "statement": "A tag, from its creation until it is removed, resolves to the same snapshot id and reads the same rows whatever else happens to the storage.", "quantifier": "every history of operations that does not remove the tag, on any number of up-to-date handles", "why_tests_cant": "Invariant over unbounded histories.", "anchors": ["python/src/space/core/storage.py: add_tag, lookup_reference, version_to_snapshot_id, commit"]}
{"id": "C12", "title": "Conflicting transactions are rejected", "statement": "If another handle committed to the same branch between the start of a mutation and its commit, the mutation ends as FAILED and the stored data, references and snapshots are as the other handle left them.", "quantifier": "every interleaving of any number of handles at begin/compute/commit granularity", "why_tests_cant": "Concurrency: all schedules.", "anchors": ["python/src/space/core/storage.py: Transaction.commit, __enter__", "python/src/space/core/runners.py: StorageMixin.transactional"]}
{"id": "C13", "title": "A successful commit applies to the snapshot it was computed from", "statement": "When a mutation succeeds, its new snapshot is a child of exactly the snapshot content its patch was computed from, so no concurrent successful mutation of that branch is lost or overwritten.", "quantifier": "every interleaving of any number of handles, including branch removal and creation and including steps inside commit", "why_tests_cant": "Lost updates and ABA problems only show under particular schedules.", "anchors": ["python/src/space/core/storage.py: Transaction.commit, Storage.commit, Storage._write_metadata"]}
{"id": "C14", "title": "Failed and skipped operations change nothing visible", "statement": "If a mutation returns FAILED or SKIPPED or raises, every version, tag, branch and listing reads as before.", "quantifier": "every operation, every state, every error path", "why_tests_cant": "All error paths of all operations from all states.", "anchors": ["python/src/space/core/runners.py: StorageMixin.transactional", "python/src/space/core/storage.py: Transaction"]}
{"id": "C15", "title": "Commit is atomic under crashes", "statement": "If the process dies at any point while writing files for a commit, tag or branch operation, a later load sees either exactly the state before or exactly the state after, never an error and never a mixture.", "quantifier": "every crash point between file system operations of every commit", "why_tests_cant": "Crash points cannot be enumerated by running code normally.", "anchors": ["python/src/space/core/fs/arrow.py: ArrowLocalFileSystem.write_proto", "python/src/space/core/storage.py: Storage._write_metadata"]}
{"id": "C16", "title": "Create never damages an existing storage", "statement": "Creating a storage at a location that already holds one fails with an already-exists error and the existing storage reads as before.", "quantifier": "every existing storage state; every interleaving of two creators", "why_tests_cant": "All states; race between the existence check and the move.", "anchors": ["python/src/space/core/storage.py: Storage.create", "python/src/space/core/fs/arrow.py: write_proto"]}
{"id": "C17", "title": "Tag and branch operations never lose commits", "statement": "Adding or removing a tag or branch through any handle leaves all committed snapshots, and what all branches read, unchanged.", "quantifier": "every state, every number of handles, every staleness of the handle", "why_tests_cant": "Stale handle schedules are not exercised by tests.", "anchors": ["python/src/space/core/storage.py: Storage._add_reference, _remove_reference, reload"]}
{"id": "C18", "title": "Diff walks exactly the commits between two versions", "statement": "diff(a, b) reports changes of exactly the commits after a up to and including b on the history of b, in commit order, and raises if a is not an ancestor of b or b is not newer than a.", "quantifier": "every storage history with branches, every pair of versions", "why_tests_cant": "All histories and pairs.", "anchors": ["python/src/space/core/ops/change_data.py: ordered_snapshot_ids", "python/src/space/core/runners.py: LocalRunner.diff"]}
{"id": "C19", "title": "Replaying a diff reproduces the newer version", "statement": "Starting from read(a) and applying the reported deletes and adds of diff(a, b) in order yields read(b) (as multisets of rows; deletes are by primary key).", "quantifier": "every history of mutations, every pair of versions on it", "why_tests_cant": "Relates change logs, bitmaps and data files for all histories.", "anchors": ["python/src/space/core/ops/change_data.py: LocalChangeDataReadOp", "python/src/space/core/ops/delete.py: _build_bitmap", "python/src/space/core/ops/append.py: _finish_index_writer"]}
{"id": "C20", "title": "Diffs compose", "statement": "diff(a, c) is diff(a, b) followed by diff(b, c) whenever b is a version between them.", "quantifier": "every storage state, all a, b, c", "why_tests_cant": "All triples on all histories.", "anchors": ["python/src/space/core/ops/change_data.py: read_change_data"]}
{"id": "C21", "title": "Every commit can be diffed", "statement": "For every commit made through the public API, diff over it succeeds and reports its changes.", "quantifier": "every kind of mutation", "why_tests_cant": "Tests only diff over append, delete and upsert.", "anchors": ["python/src/space/core/loaders/parquet.py: LocalParquetLoadOp", "python/src/space/core/ops/change_data.py: LocalChangeDataReadOp", "python/src/space/core/storage.py: Storage.commit"]}
{"id": "C22", "title": "Parallel append covers the input exactly once", "statement": "Appending through the Ray runner with any parallelism writes every input row exactly once.", "quantifier": "every input size, every number of shards, every list of input iterators", "why_tests_cant": "Off-by-one errors in the shard arithmetic appear only at particular sizes.", "anchors": ["python/src/space/ray/ops/append.py: RayAppendOp.write, write_from"]}
{"id": "C23", "title": "Parallel delete equals local delete", "statement": "Deleting through the Ray runner leaves the same rows as the local runner.", "quantifier": "every filter, every storage state, every layout", "why_tests_cant": "Depends on how files share manifests.", "anchors": ["python/src/space/ray/ops/delete.py: RayDeleteOp.delete", "python/src/space/core/ops/delete.py: FileSetDeleteOp"]}
{"id": "C24", "title": "Parallel read equals local read", "statement": "Reading through the Ray runner with any batch size, any filter, with or without row-range blocks, returns the same rows as the local read, each exactly once.", "quantifier": "every file set, batch size and filter", "why_tests_cant": "Slice arithmetic against every file size and every selectivity.", "anchors": ["python/src/space/ray/data_sources.py: SpaceDataSource.get_read_tasks", "python/src/space/core/ops/read.py: FileSetReadOp.__iter__"]}
{"id": "C25", "title": "Parallel diff equals local diff", "statement": "The Ray change data reader covers every added and deleted file of each snapshot exactly once, whatever the number of streams.", "quantifier": "every number of files and streams", "why_tests_cant": "Shard arithmetic for all sizes.", "anchors": ["python/src/space/ray/ops/change_data.py: RayChangeDataReadOp.__iter__"]}
{"id": "C26", "title": "A refreshed materialized view equals its view", "statement": "After refresh() succeeds, reading the materialized view returns the rows the view returns on the source version that was refreshed to, whatever sequence of refreshes led there.", "quantifier": "every source history, every row-wise UDF, every sequence of refresh targets", "why_tests_cant": "Incremental maintenance correctness is over all histories; tests use two or three commits and a UDF that never drops all rows.", "anchors": ["python/src/space/ray/runners.py: RayMaterializedViewRunner.refresh", "python/src/space/core/ops/change_data.py"]}
{"id": "C27", "title": "Refresh is idempotent", "statement": "Calling refresh() on an up-to-date materialized view succeeds and changes nothing.", "quantifier": "every materialized view state", "why_tests_cant": "All states, including histories with skipped commits.", "anchors": ["python/src/space/ray/runners.py: RayMaterializedViewRunner.refresh", "python/src/space/core/ops/change_data.py: ordered_snapshot_ids"]}
{"id": "C28", "title": "Field ids are unique and stable", "statement": "Creating a storage gives each field, at every nesting level, a distinct id numbered in depth-first order from zero, without changing names, order or types.", "quantifier": "every nested schema", "why_tests_cant": "Arbitrary nesting depth and width.", "anchors": ["python/src/space/core/schema/field_ids.py: FieldIdManager"]}
{"id": "C29", "title": "Schemas survive storage", "statement": "The schema loaded from storage metadata equals the schema given to create (names, order, types including nested ones, and top-level field ids), for logical and physical form.", "quantifier": "every schema of supported types, any nesting", "why_tests_cant": "Arbitrary nesting depth; name consumption order matters.", "anchors": ["python/src/space/core/schema/substrait.py: substrait_fields", "python/src/space/core/schema/arrow.py: arrow_schema"]}
{"id": "C30", "title": "Schema validation accepts exactly the supported schemas", "statement": "create succeeds in validation exactly when there is at least one primary key, primary keys and record fields are existing fields of allowed types, and no record field is a primary key.", "quantifier": "every schema, key list and record field list", "why_tests_cant": "Infinite input space.", "anchors": ["python/src/space/core/schema/utils.py: validate_logical_schema"]}
{"id": "C31", "title": "Record values are resolved to their own rows", "statement": "Reading a record field for any list of addresses, in any order, over any number of record files and with repetitions, returns at position i the bytes stored at address i.", "quantifier": "every address list, every set of record files", "why_tests_cant": "Permutations and repetitions are unbounded.", "anchors": ["python/src/space/core/ops/read.py: read_record_column", "python/src/space/core/fs/array_record.py: read_record_file"]}
{"id": "C32", "title": "Random access covers each address once", "statement": "The array record data source built from a list of addresses exposes exactly those records, each once per occurrence in the list, and the i-th element is the record of the i-th address.", "quantifier": "every list of addresses over any number of files", "why_tests_cant": "Run detection must be right for every list, including gaps, repetitions and arbitrary order.", "anchors": ["python/src/space/core/random_access.py: build_file_instructions, _file_instruction"]}
{"id": "C33", "title": "Stored paths are portable", "statement": "A path written as relative to the storage location resolves to the same file, and after moving the whole directory to another location the same metadata resolves to the moved files.", "quantifier": "every location, including locations with dot segments, every stored relative path", "why_tests_cant": "Path normalisation for all inputs.", "anchors": ["python/src/space/core/utils/paths.py: StoragePathsMixin.short_path, full_path", "python/src/space/core/storage.py: Storage.load"]}
{"id": "C34", "title": "Externally loaded files stay readable", "statement": "After append_parquet or append_array_record with any glob pattern accepted by the runner, reading returns the old rows plus the rows of the matched files.", "quantifier": "every storage state, every set of external files, absolute or relative patterns", "why_tests_cant": "Depends on path form and current directory.", "anchors": ["python/src/space/core/loaders/parquet.py: LocalParquetLoadOp", "python/src/space/core/loaders/array_record.py: LocalArrayRecordLoadOp", "python/src/space/core/utils/paths.py: full_path"]}
{"id": "C35", "title": "Row count statistics are exact", "statement": "The num_rows statistic of each snapshot equals the number of rows a read of it returns.", "quantifier": "every history of mutations", "why_tests_cant": "Invariant over histories.", "anchors": ["python/src/space/core/storage.py: Storage.commit", "python/src/space/core/ops/utils.py: update_index_storage_stats", "python/src/space/core/ops/delete.py"]}
{"id": "C36", "title": "Byte statistics are exact", "statement": "The index byte statistics of each snapshot equal the sums over its index files as listed in its manifests.", "quantifier": "every history of mutations", "why_tests_cant": "Invariant over histories and layouts.", "anchors": ["python/src/space/core/ops/delete.py: FileSetDeleteOp.delete, _read_index_statistics", "python/src/space/core/storage.py: Storage.commit"]}
{"id": "C37", "title": "Merging patches is order preserving and additive", "statement": "Merging a list of optional patches is absent exactly when all are absent; otherwise it lists the additions, deletions and change log entries of all of them in order and its statistics are the sums; merging in groups gives the same result.", "quantifier": "every list of optional patches", "why_tests_cant": "Algebraic law over all lists.", "anchors": ["python/src/space/core/ops/utils.py: merge_patches"]}
{"id": "C38", "title": "Batch size never changes results", "statement": "read_all with any batch size returns the same rows as without one, each batch has at most batch-size rows, and no batch is empty.", "quantifier": "every file set, every positive batch size", "why_tests_cant": "All sizes.", "anchors": ["python/src/space/core/ops/read.py: FileSetReadOp.__iter__", "python/src/space/core/runners.py: BaseReadOnlyRunner.read_all"]}
{"id": "C39", "title": "Column projection commutes with reading", "statement": "read(fields=fs) returns the full read restricted to the chosen columns; values of index and record columns do not depend on which other columns are selected.", "quantifier": "every field subset, every storage state, with or without a filter", "why_tests_cant": "All subsets.", "anchors": ["python/src/space/core/ops/read.py: FileSetReadOp", "python/src/space/core/schema/arrow.py: classify_fields"]}
{"id": "C40", "title": "References follow the naming rules", "statement": "add_tag/add_branch succeed exactly on non-empty names other than main that are not in use and (for tags) existing snapshot ids, and afterwards the name resolves to that snapshot; remove succeeds exactly on existing references of the right kind that are not the current branch; everything else raises and changes nothing.", "quantifier": "every state, every name", "why_tests_cant": "All names and states.", "anchors": ["python/src/space/core/storage.py: add_tag, add_branch, remove_tag, remove_branch, set_current_branch"]}
{"id": "C41", "title": "A new branch starts from the current branch", "statement": "add_branch and add_tag without an explicit version refer to the snapshot the handle's current branch is reading.", "quantifier": "every state, every current branch", "why_tests_cant": "Tests create branches only while on main.", "anchors": ["python/src/space/core/storage.py: add_branch, _add_reference"]}
{"id": "C42", "title": "Logical plans survive storage", "statement": "A materialized view loaded from storage applies the same transforms with the same functions, input fields and order as the view it was created from.", "quantifier": "every chain of map and filter transforms over a dataset", "why_tests_cant": "Arbitrary plan depth, shared extension table.", "anchors": ["python/src/space/core/transform/plans.py: LogicalPlanBuilder", "python/src/space/core/transform/udfs.py: BaseUdfTransform", "python/src/space/core/transform/utils.py"]}
{"id": "C43", "title": "Partitioned join equals inner join", "statement": "A join view returns the inner join on the key of what its two inputs read, for every partition function whose ranges partition the key range.", "quantifier": "every pair of inputs, every partition of the key range", "why_tests_cant": "All data distributions and range boundaries.", "anchors": ["python/src/space/ray/ops/join.py: RayJoinOp, _join_key_range, _range_to_filter, _JoinOp", "python/src/space/core/transform/join.py"]}
{"id": "C44", "title": "Views filter their output", "statement": "Reading a view with a filter returns the rows of the view on which the filter is true, the same as reading its materialized view with that filter.", "quantifier": "every row-wise UDF and filter", "why_tests_cant": "Over all functions; tests use identity-like keys.", "anchors": ["python/src/space/core/transform/udfs.py: BaseUdfTransform.ray_dataset", "python/src/space/core/transform/plans.py"]}
{"id": "C45", "title": "Serializers round trip", "statement": "Deserializing what was serialized gives the original table for every field, for any set of fields with serializers.", "quantifier": "every table, every set of round-tripping field serializers", "why_tests_cant": "All inputs.", "anchors": ["python/src/space/core/serializers/base.py: DictSerializer"]}
{"id": "C46", "title": "A reader sees one snapshot", "statement": "The rows returned by a read that has started do not change when other handles commit, tag, branch or delete while it is being consumed.", "quantifier": "every interleaving of reader and writers", "why_tests_cant": "All schedules.", "anchors": ["python/src/space/core/runners.py: LocalRunner.read", "python/src/space/core/ops/read.py: FileSetReadOp", "python/src/space/core/storage.py: data_files"]}
{"id": "C47", "title": "Everything referenced exists", "statement": "At every moment, including after crashes and failures, every manifest, index file, record file and change log referenced from stored metadata exists with the recorded contents.", "quantifier": "every history and crash point", "why_tests_cant": "Invariant over histories and crash points.", "anchors": ["python/src/space/core/storage.py", "python/src/space/core/ops/append.py", "python/src/space/core/ops/delete.py"]}
{"id": "C48", "title": "Version listing is complete", "statement": "versions() lists every snapshot, once per tag or branch pointing to it and once without a name if there is none.", "quantifier": "every metadata state", "why_tests_cant": "All reference maps.", "anchors": ["python/src/space/core/storage.py: Storage.versions, snapshot_ids"]}
{"id": "C49", "title": "Catalog lists what was created", "statement": "A dataset or view created under a name in a directory catalog can be loaded by that name, and listing returns exactly the names of directories holding a storage.", "quantifier": "every sequence of creations", "why_tests_cant": "All name sets.", "anchors": ["python/src/space/catalogs/directory.py: DirCatalog"]}
{"id": "C50", "title": "Two handles eventually agree", "statement": "A handle that reloads sees exactly the last committed state, and reload reports a change exactly when the stored state differs from what it had.", "quantifier": "every interleaving of two handles", "why_tests_cant": "All schedules; the comparison mixes path forms.", "anchors": ["python/src/space/core/storage.py: Storage.reload, load, _write_metadata"]}
{"id": "C51", "title": "Single-handle histories refine a map from versions to row multisets", "statement": "For any sequence of append, insert, upsert, delete, tag and branch calls on one handle, the results and all reads agree with a simple in-memory table of versions.", "quantifier": "every sequence of API calls", "why_tests_cant": "Refinement over unbounded call sequences.", "anchors": ["python/src/space/core/runners.py", "python/src/space/core/storage.py", "python/src/space/core/ops/append.py", "python/src/space/core/ops/insert.py", "python/src/space/core/ops/delete.py"]}
{"id": "C52", "title": "Record row ids never overflow", "statement": "Row ids recorded in addresses stay below 2^31 as long as the record file size limit and batch sizes stay below the documented bounds.", "quantifier": "every sequence of writes", "why_tests_cant": "Needs impractically large data.", "anchors": ["python/src/space/core/ops/utils.py: address_column", "python/src/space/core/ops/append.py: _write_record_column"]}
{"id": "C53", "title": "Column order is irrelevant to writing", "statement": "Every table that has the columns of a schema accepted by create can be appended, whatever the position of record fields in the schema.", "quantifier": "every accepted schema", "why_tests_cant": "Tests always put record fields last.", "anchors": ["python/src/space/core/ops/append.py: _write_arrow", "python/src/space/core/schema/arrow.py: logical_to_physical_schema"]}
{"id": "C54", "title": "Record manifests describe the record files", "statement": "After an append, the record manifest lists every record file written, with the field id, the true number of records and the byte size counted while writing.", "quantifier": "every sequence of writes and thresholds", "why_tests_cant": "All roll-over patterns.", "anchors": ["python/src/space/core/manifests/record.py: RecordManifestWriter", "python/src/space/core/ops/append.py: _finish_record_writer"]}
{"id": "C55", "title": "Field id lookups agree with positions", "statement": "In a created storage with distinct field names, looking up the id of the i-th top-level field gives column i and its name, and looking up its name gives its id; the ids are distinct and keys are non-record columns.", "quantifier": "every nested schema of supported types with distinct names", "why_tests_cant": "Nested fields shift ids away from positions; tests use a handful of flat schemas.", "anchors": ["python/src/space/core/schema/arrow.py: field_name_to_id_dict, field_id_to_name_dict, field_id_to_column_id_dict"]}
{"id": "C56", "title": "Index and record columns partition the selected columns", "statement": "classify_fields puts every selected column in exactly one of its two lists, record fields in the second and all others in the first, each in schema order.", "quantifier": "every schema, set of record fields and set of selected fields", "why_tests_cant": "Tests check one or two schemas.", "anchors": ["python/src/space/core/schema/arrow.py: classify_fields"]}
{"id": "C57", "title": "Reading a view applies its functions to the rows of the source", "statement": "Reading a chain of map and filter transforms over a dataset with Ray returns exactly what the functions make of the rows a local read of the dataset returns at that version, each row as often, and raises what the local read raises.", "quantifier": "every reachable storage, every version, every chain of row-wise functions whose input fields exist, every batch size, and every way Ray cuts and orders blocks", "why_tests_cant": "tests read views of a few rows with one batch per file; the claim needs all chains, all ways of batching and all versions", "anchors": ["python/src/space/core/transform/udfs.py:106-115", "python/src/space/core/transform/utils.py:27-42", "python/src/space/ray/runners.py:60-86"]}
{"id": "C58", "title": "Ray inserts and upserts have the effect of local ones", "statement": "An insert through the Ray runner fails and changes nothing if two given rows share a key or a key exists already, and otherwise adds every given row exactly once; an upsert through it replaces the rows with the given keys by the given rows and keeps the others.", "quantifier": "every reachable storage, every list of rows, every parallelism, every schedule of the actors, whatever other handles do meanwhile", "why_tests_cant": "tests insert a few rows with one parallelism; the claim needs every layout of files over which keys are checked and every way rows are divided among actors", "anchors": ["python/src/space/ray/ops/insert.py:34-60", "python/src/space/ray/runners.py:295-310", "python/src/space/core/ops/insert.py:79-99"]}
{"id": "C59", "title": "No data file without rows is written", "statement": "Every index file that any operation of the library writes and closes has at least one row, whether the operation succeeds or fails; so if the user loads no empty file, every file of every current version has a row.", "quantifier": "every reachable storage, every operation with every input (also empty tables among the rows given, deletes that empty files, Ray runners with idle actors), every size limit and row group cut, any number of handles", "why_tests_cant": "whether a writer is left open without rows depends on where the size limits cut the input and on which actor gets which rows; tests use one cut", "anchors": ["python/src/space/core/ops/append.py:124-158", "python/src/space/core/ops/append.py:164-220", "python/src/space/core/ops/delete.py:86-140", "python/src/space/ray/ops/append.py:51-110"]}
{"id": "C60", "title": "Handles used at once act like one table in memory", "statement": "Whatever several handles do at the same time, everything that took effect (appends, inserts, upserts, deletes, local or with Ray, loads of Parquet and ArrayRecord files, refreshes of materialized views, and changes of tags and branches) could have been done one after the other, in the order in which it took effect, to a plain table of versions in memory; and every handle reads, at every version, what that table has.", "quantifier": "every reachable storage, any number of handles, every interleaving of their mutations (start, body, commit) and calls, every read by filter, columns and version", "why_tests_cant": "tests run at most two handles in one fixed order; serializability is about every interleaving of every mutation on every branch", "anchors": ["python/src/space/core/storage.py:545-600", "python/src/space/core/storage.py:315-365", "python/src/space/core/storage.py:238-312", "python/src/space/core/runners.py:99-127", "python/src/space/core/loaders/parquet.py:30-74", "python/src/space/core/loaders/array_record.py:36-109"]}
{"id": "C61", "title": "A mutation loses only to another mutation", "statement": "While references are changed only through objects that are up to date and the branch is not removed, the commit of a mutation returns FAILED exactly if some other mutation committed to the same branch since it started; it never raises; otherwise it returns SUCCEEDED, or SKIPPED if there was nothing to do.  So of any mutations under way on a branch the first to commit succeeds.", "quantifier": "every interleaving of any number of handles between the start and the commit of any mutation", "why_tests_cant": "A conflict reported without cause needs all interleavings with commits to other branches, tags, branches, failed mutations and files left behind.", "anchors": ["python/src/space/core/storage.py: Transaction.__enter__, commit", "python/src/space/core/storage.py: Storage.commit", "python/src/space/core/utils/paths.py", "python/src/space/core/ops/base.py"]}
{"id": "C62", "title": "Files are written once", "statement": "Every file that any operation puts in place is a new file under a name of its kind; the only file that is ever replaced is the entry point, as the last thing an operation does, by one that names a metadata file already in place.  So any file that exists keeps its content for good.", "quantifier": "every operation of every handle in every history, whether it succeeds, fails or raises", "why_tests_cant": "One overwritten file among all files of all histories breaks old versions; tests look at few files.", "anchors": ["python/src/space/core/storage.py: _write_metadata, commit, create", "python/src/space/core/ops/append.py", "python/src/space/core/manifests/index.py", "python/src/space/core/manifests/record.py", "python/src/space/core/fs/arrow.py: write_proto", "python/src/space/core/utils/paths.py"]}
{"id": "C63", "title": "No two rows share a stored record", "statement": "In every version of a table, no two rows hold the same address in a record column: each row has its own record in the record files.  A reference read gives every address once.", "quantifier": "every version of every history of any number of handles with any mutations, loads, Ray jobs and refreshes", "why_tests_cant": "It needs all ways of splitting rows into files and manifests, and all orders of deletes, upserts and loads; a shared record shows only as wrong counts in random access or joins on addresses.", "anchors": ["python/src/space/core/ops/append.py: _append_arrow", "python/src/space/core/ops/delete.py: delete", "python/src/space/ray/ops/append.py", "python/src/space/ray/ops/delete.py", "python/src/space/core/loaders/array_record.py", "python/src/space/core/random_access.py: build_file_instructions"]}
{"id": "C64", "title": "A random access source gives the rows of the table", "statement": "A random access source opened on record fields of a table has one element for each row of a full read of the current version, element k being row k in these fields, deserialised if asked for; lists of indexes give these rows in the order asked for; indexes beyond raise.  It keeps giving these elements whatever is done to the table afterwards.  On a table without rows, or on a field that cannot be deserialised, opening raises.", "quantifier": "every table after any history, every choice of fields, mode and serializers, every index and list of indexes, any later changes of the table", "why_tests_cant": "Order and number of elements depend on how appends, deletes and upserts left addresses in the files; tests read tables that were appended to once.", "anchors": ["python/src/space/core/random_access.py: RandomAccessDataSource", "python/src/space/core/random_access.py: ArrowDataSource, ArrayRecordDataSource", "python/src/space/core/random_access.py: build_file_instructions", "python/src/space/core/ops/read.py: read_record_column", "python/src/space/core/serializers/base.py"]}
{"id": "C65", "title": "Joining addresses and looking records up later is joining the data", "statement": "A join of two tables read with references instead of the records of one or both tables returns exactly if the join of the records does, and its rows, with each address replaced by the record at it, are the rows of that join, each as often.  A random access source opened on the addresses of the join has one element for each of its rows, and element k is the records of row k, also after later changes of both tables.", "quantifier": "any two tables after any histories, every choice of fields and reference reads, every partition of the key range, every choice of record fields, every index, any later changes of the tables", "why_tests_cant": "Addresses are joined as flattened columns and looked up in two storages; a test joins two small tables once and compares one order.", "anchors": ["python/src/space/ray/ops/join.py: RayJoinOp.ray_dataset, _join", "python/src/space/core/views.py: View.join", "python/src/space/core/random_access.py: RandomAccessDataSource", "python/src/space/core/ops/read.py: FileSetReadOp"]}
{"id": "C66", "title": "Record bytes in the statistics are the bytes of the listed record files", "statement": "The number of record bytes in the statistics of every snapshot is the sum of the bytes of the record files that its record manifests list; a mutation that takes effect adds exactly the bytes of the record files it lists.", "quantifier": "every history of appends, inserts, upserts, deletes (local and Ray), refreshes and loads, every snapshot, every environment (file size limits, byte counts of columns)", "why_tests_cant": "The statistics of a snapshot are sums of updates made by merged patches over the whole history; tests check the statistics after one or two operations.", "anchors": ["python/src/space/core/ops/append.py: LocalAppendOp.finish", "python/src/space/core/ops/delete.py: FileSetDeleteOp", "python/src/space/core/ops/utils.py: update_index_storage_stats, update_record_stats_bytes, merge_patches", "python/src/space/core/loaders/array_record.py: LocalArrayRecordLoadOp.write", "python/src/space/core/storage.py: Storage.commit"]}
{"id": "C67", "title": "A filter opens exactly the files whose key ranges admit it", "statement": "With a filter, the storage gives a reader, a delete or an upsert exactly those data files of the version in which, going by the least and the greatest value of each primary key in the file, a row could satisfy the filter: no file is opened in vain, and the files keep their order.", "quantifier": "every reachable state, every handle, every snapshot id, every filter built from comparisons of columns and literals", "why_tests_cant": "Tests check the manifest filter built for a few expressions and the rows read; rows do not show which files were opened, and the statistics of a file go through every row group and every rewrite by deletes and upserts.", "anchors": ["python/src/space/core/manifests/falsifiable_filters.py: build_manifest_filter", "python/src/space/core/manifests/index.py: IndexManifestWriter.write, _FieldStats.merge, read_index_manifests", "python/src/space/core/storage.py: Storage.data_files"]}
{"id": "C68", "title": "A manifest row says what its file holds", "statement": "The manifest row made for an index file has the path, the number of rows over all row groups, the compressed and the uncompressed bytes of the primary key columns summed over all row groups, and for each primary key, in schema order, the least and the greatest value over all row groups.  It can be made exactly if in no key column a row group with a value comes before a row group without.", "quantifier": "every schema whose keys are plain columns before nested columns, every file (any number of row groups, nulls and NaN anywhere), every column size", "why_tests_cant": "Test files have one row group and two or three rows, so that sums over row groups, the order of merging and row groups of nulls are never met.", "anchors": ["python/src/space/core/manifests/index.py: IndexManifestWriter.write, _FieldStats.merge, _manifest_schema", "python/src/space/core/schema/arrow.py: field_id_to_column_id_dict"]}
{"id": "C69", "title": "Metadata files are replaced in one step", "statement": "However the file system calls of concurrent write_proto and read_proto calls interleave and wherever processes stop, a file always shows what it showed at first or the whole message of a writer of it that has returned; only the last call of a writer changes it.  A reader, however slowly it reads, gets the content the file had at one moment during its call.  A writer raises only if it was to fail on an existing file and met one; a writer that returned or raised leaves no temporary file.  This needs writers of one file to draw different random ids.", "quantifier": "any number of writers and readers of any files, any messages, every interleaving of their file system calls, writes and reads in pieces of any size, every point of failure", "why_tests_cant": "The test writes one proto and reads it back; torn reads and lost messages need two processes interrupted between particular system calls.", "anchors": ["python/src/space/core/fs/arrow.py: ArrowFileSystem.write_proto, ArrowFileSystem.read_proto", "python/src/space/core/utils/uuids.py: random_id", "python/src/space/core/storage.py: Storage._write_metadata, _read_entry_point, _read_metadata"]}
{"id": "C70", "title": "Lazy imports behave like imports made at the first use", "statement": "Import statements in `with lazy_imports` blocks bind an object for every module they name, import nothing, call no callback and leave `__import__` as it was, also if one raises.  Looking an attribute up on such an object gives what importing the module and looking the attribute up gives; the module is imported at the first such use and after a success not again, and every import is reported once to the callback for its outcome.", "quantifier": "any number of blocks with any absolute or relative import statements, any later sequence of attribute lookups, every import system (which modules exist, which attributes they have)", "why_tests_cant": "No test exercises lazy imports; whether ray is installed and which object is cached depend on the process.", "anchors": ["python/src/space/core/utils/lazy_imports_utils.py: LazyModule.__getattr__, LazyModule.from_cache, lazy_imports, _lazy_import"]}
{"id": "C71", "title": "Row counts announced by Ray read tasks are the rows they yield", "statement": "Each read task of a Ray dataset of a snapshot or of a change carries a row count which is either unknown or exactly the number of rows that the task yields; it is unknown only for files read through a bitmap and for files without rows.  `Dataset.count`, which sums these numbers and gives the number of partitions when blocks are not cut by row ranges, is the number of rows that reading the dataset gives.", "quantifier": "every reachable storage, every version and change, with and without row ranges, every batch size, every selection of columns, every delivery order", "why_tests_cant": "The counts are internal to Ray tasks; tests read datasets and compare rows, at a few batch sizes, and never ask for the count of a dataset with a filter.", "anchors": ["python/src/space/ray/data_sources.py: _SpaceDataSourceReader.get_read_tasks, _block_metadata", "python/src/space/core/storage.py: Storage.ray_dataset"]}
{"id": "C72", "title": "A job reports exactly what it did to the storage statistics", "statement": "A mutating call returns a result with a state and, if and only if the state is SUCCEEDED, an update of the storage statistics.  The statistics of the snapshot at the head of the branch change by exactly this update in all four numbers (rows, compressed and uncompressed index bytes, record bytes), and the rows of the update are the rows the mutation is meant to add less those it is meant to remove.  A job that failed or was skipped reports no update and leaves the stored metadata as it was.", "quantifier": "every mutation of both runners, every reachable storage, whole calls and commits of mutations computed earlier while other handles did anything in between", "why_tests_cant": "Tests check the update of a few appends and deletes of one handle; they do not compare it with the stored statistics after every mutation, on branches, after conflicts or between interleaved handles.", "anchors": ["python/src/space/core/jobs.py: JobResult", "python/src/space/core/storage.py: Transaction.commit, Transaction.result, Storage.commit", "python/src/space/core/runners.py: StorageMixin.transactional"]}
{"id": "C73", "title": "A version can be named by its id, by a tag or by a branch alike", "statement": "Reading or diffing at a name that is listed among the versions (a tag or a branch) gives exactly what reading or diffing at the id of its snapshot gives, and the snapshot exists; reading at a branch gives what a handle on this branch reads.  Every branch a handle can be on, 'main' among them, can be named as a version.", "quantifier": "every reachable storage, every handle, every listed name, every read option and either end of a diff", "why_tests_cant": "Tests read at one tag and one branch; they do not compare the three ways of naming over all states reached by interleaved tagging, branching and committing, and never name 'main'.", "anchors": ["python/src/space/core/storage.py: Storage.version_to_snapshot_id, lookup_reference, versions, set_current_branch", "python/src/space/core/runners.py: LocalRunner.read, diff"]}
{"id": "C74", "title": "The rows of a view have the columns the view declares, and an accepted view can be read", "statement": "If the functions of a view give tables with the columns their output schema declares, each row read from the view has exactly the fields of the schema of the view, and reading a view that was accepted when it was built does not raise because a column is missing.", "quantifier": "every chain of map and filter transforms over a dataset or a join, every reachable storage, every delivery of blocks by Ray", "why_tests_cant": "Tests build chains of one or two transforms with a few choices of input fields; a claim about all chains and all choices of input fields needs induction over views.", "anchors": ["python/src/space/core/views.py: View.map_batches, View.filter, _default_or_validate_input_fields", "python/src/space/core/transform/udfs.py: MapTransform, FilterTransform, _transform_and_filter"]}
{"id": "C75", "title": "Calls leave the objects of their caller as they were", "statement": "A call leaves the options, lists and dictionaries it is given as they were, so that the same object can be given to another call with the same meaning, and a view once built reads the same no matter what other views are built.  This concerns the ReadOptions given to View.ray_dataset, the lists left_fields and right_fields given to View.join, and the dictionary feature_fields given to RandomAccessDataSource.", "quantifier": "every view, every storage state, every options object, every sharing of lists among calls", "why_tests_cant": "Tests make a new object for each call; sharing one object among several calls, and building several views that share a list, is not tried.", "anchors": ["python/src/space/core/transform/udfs.py: BaseUdfTransform._ray_dataset", "python/src/space/core/transform/utils.py: ray_dataset", "python/src/space/core/views.py: View.ray_dataset, View.join", "python/src/space/core/random_access.py: RandomAccessDataSource.__init__"]}
{"id": "C76", "title": "Transforms on top of a join give what their functions make of the joined rows", "statement": "Reading a map or filter, or any chain of them, whose innermost input is a join gives exactly the rows that the functions make of the rows of the join, each as often; it raises what reading the join raises; with C43 this is the chain applied to the inner join of both sides.", "quantifier": "every chain of transforms, every join, every two storages in any reachable state, every delivery of blocks", "why_tests_cant": "Tests have one map on one join; chains, blocks regrouped at will and errors from inside are not tried.", "anchors": ["python/src/space/core/transform/udfs.py: BaseUdfTransform._ray_dataset", "python/src/space/core/transform/utils.py: ray_dataset", "python/src/space/core/transform/join.py: JoinTransform._ray_dataset", "python/src/space/ray/ops/join.py: RayJoinOp"]}
{"id": "C77", "title": "A refresh reports all that it did", "statement": "refresh of a materialized view returns a list of job results that describes, one after the other, everything that happened to the storage of the view: each result that succeeded stands for exactly one new snapshot on the branch of the object, whose parent is the head before it, and reports how the four storage statistics of that snapshot differ from those of its parent; each other result reports no statistics and stands for no change; only the last result can be a failure; so the reported numbers add up to the change of the statistics.", "quantifier": "every storage of a view reached by any steps, every object of it and its branch, every source (object and files), target version, batch size, schedule of the actors, and every behaviour of Ray and of the functions of the view", "why_tests_cant": "A refresh may take any number of transactions with any mixture of changes per source snapshot and may end early at any of them, by a failed commit, by an error that becomes a result or by one that is raised.", "anchors": ["python/src/space/ray/runners.py:174-236", "python/src/space/core/storage.py:556-585", "python/src/space/core/jobs.py:25-45", "python/src/space/core/ops/utils.py:94-118"]}
{"id": "C78", "title": "FAILED means an error of the library; every other exception reaches the caller", "statement": "a mutation of a branch that exists, with nobody else committing during it, returns FAILED exactly if the operation raised one of the errors that the library defines (utils/errors.py), raises an exception exactly if the operation raised it and it is none of those, and returns SUCCEEDED or SKIPPED in all other cases; on a branch that has been removed it returns FAILED; calls that are no mutations never return FAILED.", "quantifier": "every storage reached by any steps, every object of it, every mutation with any input, and every behaviour of Arrow and of the file system that the model has", "why_tests_cant": "Errors come from every layer below the runner and at any point of an operation; tests provoke the few the library raises itself.", "anchors": ["python/src/space/core/runners.py:105-121", "python/src/space/core/utils/errors.py:18-55", "python/src/space/core/storage.py:535-585"]}
{"id": "C79", "title": "A read raises only if it asks for something that is not there", "statement": "A read returns, whatever its batch size and with or without record references, if the version exists (the branch of the object, a snapshot id, or a listed tag or branch), the selected columns are columns of the schema and the filter mentions columns of the schema only. If the version does not exist it raises the error for missing versions; if the filter mentions a column that does not exist it raises; if a selected column does not exist it raises too, except that an unfiltered read of a version without any file returns no rows.", "quantifier": "every storage reached by any steps of any number of objects, crashes and races included, every object, every version, every read option", "why_tests_cant": "Whether a read raises depends on every file that any earlier commit listed and on the shape of the schema and filter; tests read a few tables right after writing them.", "anchors": ["python/src/space/core/runners.py:217-227", "python/src/space/core/storage.py:122-146", "python/src/space/core/storage.py:369-403", "python/src/space/core/ops/read.py:93-135", "python/src/space/core/manifests/falsifiable_filters.py:298-308"]}
{"id": "C80", "title": "A mutation leaves no file behind that the table does not use", "statement": "After a mutation that succeeded, each file that was not there before is in use by the new version of the table: it is the metadata file the entry point names, the change log or a manifest of the new version, or a manifest of the new version lists it. A mutation that is skipped because it changes nothing leaves the files exactly as they were.", "quantifier": "every storage reached by any steps of any number of objects, crashes and races included, every mutation of the local and the Ray runner, every table of rows, every filter, every schedule of the actors", "why_tests_cant": "Whether a file is left over depends on where size thresholds fall within the rows, on the layout left by all earlier commits and on the order in which actors write; tests read tables back, and a read never opens a file that is left over.", "anchors": ["python/src/space/core/ops/append.py:124-158", "python/src/space/core/ops/append.py:226-298", "python/src/space/core/ops/delete.py:84-180", "python/src/space/core/ops/insert.py:79-116", "python/src/space/core/manifests/index.py:181-201", "python/src/space/core/manifests/record.py:62-77", "python/src/space/core/storage.py:315-366", "python/src/space/ray/ops/append.py:36-93", "python/src/space/ray/ops/delete.py:43-62"]}
{"id": "C81", "title": "Repeating a delete, an insert or an upsert changes nothing", "statement": "Once a delete has succeeded, running the same delete again on the version that it left, through any table object, is not reported as a success and leaves the metadata and every read as they were. The same holds for an insert. Once an upsert has succeeded, running the same upsert again on the version that it left leaves the table with the same rows.", "quantifier": "every storage reached by any steps of any number of objects, every filter, every table of rows, every layout of files, the repetition at any later time at which a branch is at that version, by the local or the Ray runner", "why_tests_cant": "What a repetition finds depends on how the first run left the files: rewritten, carried over or dropped, and on which of them the filter prunes. Tests repeat a call on one small table and one layout.", "anchors": ["python/src/space/core/ops/delete.py:84-180", "python/src/space/core/ops/insert.py:79-134", "python/src/space/core/ops/utils.py:51-80", "python/src/space/core/runners.py:180-205", "python/src/space/core/runners.py:282-300", "python/src/space/ray/ops/delete.py:43-62"]}
{"id": "C82", "title": "Deleting what was added restores the table", "statement": "An append, an insert, a load, or a sync without deletions that succeeded left the rows there were, in their order, followed by the rows it added. If a delete then runs on that version, through any table object, with a filter that is true of every row added and of no row there was, and succeeds, the table has exactly the rows there were before the addition, in their order.", "quantifier": "every storage reached by any steps of any number of objects, every mutation that deletes no rows, every filter that tells the two sets of rows apart, every layout of files, the delete at any later time at which a branch is at that version, by the local or the Ray runner", "why_tests_cant": "The files of the rows there were may come from any history and be pruned, visited or carried along in any combination; a test fixes one. Deletes are known to lose files or bring rows back on some layouts, so that it needs an argument that none of those layouts can arise here.", "anchors": ["python/src/space/core/ops/delete.py:84-180", "python/src/space/ray/ops/delete.py:43-62", "python/src/space/core/ops/append.py:118-158", "python/src/space/core/ops/insert.py:79-134", "python/src/space/core/storage.py:315-366"]}
{"id": "C83", "title": "The history of a branch is the sequence of its successful mutations", "statement": "Take any two moments in the life of a table and a branch that exists at the first and is not removed in between. Following the parents of the snapshots from the later head of the branch, one meets exactly the versions that the successful mutations on that branch created in the meantime, each once and in their order, and then the earlier head. Failed and skipped mutations, work on other branches and the adding and removing of other references leave no trace in it. The ids grow along the way, and the earlier head can still be read with the same rows.", "quantifier": "all tables, schemas and reachable states, all branches, all runs of any number of handles between the two moments", "why_tests_cant": "The order in which handles work is not bounded; a mutation that is lost or appears twice shows only when the whole history is compared with the calls that were made.", "anchors": ["python/src/space/core/storage.py:238-313", "python/src/space/core/storage.py:315-366", "python/src/space/core/storage.py:495-500", "python/src/space/core/storage.py:536-606"]}
{"id": "C84", "title": "index_files names the files of a version, each once", "statement": "The list that index_files(version) returns is the list of the files that hold the version: reading their rows in order, with references to records resolved, gives exactly what a read of that version through the same handle returns, and index_files raises where that read raises. No file appears in the list twice. This holds for the current version and for every older version, tag and branch, whatever mutations made it.", "quantifier": "all tables, schemas and reachable states, all handles, all version arguments", "why_tests_cant": "The manifests of a version are the outcome of the whole history of appends, deletes, upserts, loads and Ray tasks; a file listed twice or missing shows only in particular histories.", "anchors": ["python/src/space/core/datasets.py:99-104", "python/src/space/core/storage.py:369-403", "python/src/space/core/manifests/index.py:223-254", "python/src/space/core/ops/delete.py:96-165"]}
{"id": "C85", "title": "Appends, inserts, upserts, deletes and refreshes fill their files up to the size limits", "statement": "A successful append divides the tables it is given, leaving out empty ones and keeping their order, into row groups and these into files: a row group is closed with the table that makes it larger than max_uncompressed_row_group_bytes and not before, a file with the row group that makes the tables in it larger than max_uncompressed_file_bytes and not before, and only the last file and its last row group may be smaller. The files that result hold exactly these parts, with addresses in place of record values, and are listed after the files of the version before. For each record field the columns of the tables are divided into record files in the same way by the ArrayRecord max_uncompressed_file_bytes, and the new record files hold exactly these values in order. A Ray append divides its table into one piece of rows/actors rows (at least one row) per actor, the rest going to the first actor (from sources: source j goes to actor j modulo the number of actors), and each actor divides what it is given into files in this way, whatever the schedule; the new files are listed actor by actor. The new files of a delete hold what is left of each file it rewrites as one table, with the rows as they were stored and in the order of the files, divided in the same way. A Ray delete makes one new file, written as one table, of each file it rewrites of which rows are left. The rows of an insert or upsert of the local runner make one new file, written as one table and listed last, however many they are. Those of an insert or upsert by Ray are divided among the actors and into files as by a Ray append, and listed last. What an upsert, local or by Ray, writes back of the files with rows whose keys are given is divided as by a delete, where the keys of the version before are neither null nor NaN. The same is true of what a transaction of a refresh writes back; the tables it appends are divided among the actors by source and into files as by a Ray append from sources, and listed last. The values of a record field in the rows of a local insert or upsert make one new record file; those of a Ray insert, upsert or refresh are divided into record files as by a Ray append. Deletes write no record file, and all these operations leave the record files of before listed.", "quantifier": "all schemas, reachable states, lists of tables (of any number and size, also empty), size limits and size functions, all record fields; all numbers of actors and schedules; for deletes all filters that fit the schema", "why_tests_cant": "The division depends on the sizes of all tables given before and on three limits; tests append a few small tables that fit one file, and look at rows, not at file boundaries.", "anchors": ["python/src/space/core/ops/append.py:124-158", "python/src/space/core/ops/append.py:164-216", "python/src/space/core/ops/append.py:218-244", "python/src/space/core/ops/append.py:246-298", "python/src/space/core/options.py:60-99", "python/src/space/ray/ops/append.py:53-93", "python/src/space/core/ops/delete.py:84-152", "python/src/space/core/ops/insert.py:106-116", "python/src/space/ray/ops/delete.py:43-70"]}
{"id": "C86", "title": "A delete or upsert rewrites only the files that hold rows to delete", "statement": "After a successful delete the version lists exactly the files of before that have no row matching the filter, under their old names, and new files; the new files are different from each other and from all listed before, and together hold exactly the rows of the files with matches that do not match. An upsert does the same for the rows whose primary key is among the keys given, and lists after that files with exactly the rows given; a transaction of a refresh does the same with the keys of the rows it deletes and the rows it appends, and leaves all files if it deletes none.", "quantifier": "all schemas, reachable states, layouts of rows into files and manifests, filters, sets of rows upserted", "why_tests_cant": "Tests compare rows, not files; whether a file is rewritten or carried over depends on how rows lie in files and files in manifests.", "anchors": ["python/src/space/core/ops/delete.py:84-180", "python/src/space/core/ops/insert.py:79-125", "python/src/space/core/manifests/index.py:223-254", "python/src/space/core/runners.py:281-286"]}
{"id": "C87", "title": "The order of two deletes does not matter", "statement": "Deleting by a filter a and then, on the version that this left, by a filter b leaves exactly the rows on which neither a nor b is true. So it leaves the same rows, up to order, as deleting by b and then by a, and as one delete by `a or b`, whichever of the deletes run locally and whichever by Ray.", "quantifier": "all schemas, pairs of filters, reachable states, handles, things done between the two deletes that leave the branch as it is", "why_tests_cant": "Tests run one delete on a fresh table; what a second delete finds depends on how the first divided the rows into files and manifests, and there are unboundedly many such layouts and pairs of filters.", "anchors": ["python/src/space/core/ops/delete.py:84-180", "python/src/space/ray/ops/delete.py:29-70", "python/src/space/core/manifests/falsifiable_filters.py:36-120"]}
{"id": "C88", "title": "Of two upserts the later one wins, and upserts of other keys do not interfere", "statement": "Upserting rows A and then, on the version that this left, rows B leaves exactly the rows B, the rows of A whose primary keys are not among those of B, and the rows there were with keys that neither A nor B has. So if A and B have no key in common, upserting B and then A leaves the same rows, and so does one upsert of all rows of A and B, whichever of the upserts run locally and whichever by Ray.", "quantifier": "all schemas with keys, sets of rows, reachable states, handles, things done between the two upserts that leave the branch as it is", "why_tests_cant": "Tests upsert once or twice into small tables in one file; what the second upsert finds depends on how the first divided the rows into files and manifests, of which there are unboundedly many ways.", "anchors": ["python/src/space/core/ops/insert.py:79-125", "python/src/space/core/ops/delete.py:84-180", "python/src/space/ray/ops/insert.py:34-60"]}
{"id": "C89", "title": "Appends in either order add the same rows, and an append and a delete commute unless the delete matches rows appended", "statement": "Appending rows A and then, on the version that this left, rows B leaves exactly the rows there were and those of A and B; appending B first and then A, or all of them at once, leaves the same. Appending A and then deleting by a filter leaves exactly the rows there were and those of A on which the filter is not true; deleting first and then appending leaves the rows there were on which it is not true and all rows of A. So the order of an append and a delete does not matter if and only if the filter is true on no row appended, whichever of the operations run locally and whichever by Ray.", "quantifier": "all schemas, sets of rows, filters, reachable states, handles, layouts of rows into files and manifests, numbers and schedules of actors, things done between the two operations that leave the branch as it is", "why_tests_cant": "Tests run one sequence of operations on small tables; what a delete finds after an append depends on how rows were divided into files and manifests, of which there are unboundedly many ways.", "anchors": ["python/src/space/core/ops/append.py:118-216", "python/src/space/core/ops/delete.py:84-180", "python/src/space/core/runners.py:239-286", "python/src/space/ray/ops/append.py:53-120"]}
{"id": "C90", "title": "An upsert commutes with a delete unless the delete matches rows upserted, and with an append unless the append has keys of the upsert", "statement": "Upserting rows A and then, on the version that this left, deleting by a filter leaves exactly those of the rows A and of the rows there were with other keys on which the filter is not true; deleting first and then upserting leaves the rows there were with other keys on which it is not true, and all rows of A. So the order does not matter if and only if the filter is true on no row upserted, and a delete that matches only rows whose keys are upserted next makes no difference. Appending B and then upserting A leaves the rows of A, and those of B and of the rows there were that have other keys; upserting first leaves all rows of B. So here the order does not matter if and only if no row appended has a key of the upsert, whichever of the operations run locally and whichever by Ray.", "quantifier": "all schemas with keys, sets of rows, filters, reachable states, handles, numbers and schedules of actors, things done between the two operations that leave the branch as it is", "why_tests_cant": "Tests run one sequence of operations on small tables; what the second operation finds depends on how the first divided rows into files and manifests, of which there are unboundedly many ways.", "anchors": ["python/src/space/core/ops/insert.py:79-125", "python/src/space/core/ops/delete.py:84-180", "python/src/space/core/ops/append.py:118-216", "python/src/space/ray/ops/insert.py:34-60"]}
{"id": "C91", "title": "Inserts add up in either order, and an upsert is a delete of its keys and an insert", "statement": "If inserting rows A and then, on the version that this left, rows B both succeed, all keys of A and B are distinct and were not there, and exactly the rows there were and those of A and B are left; inserting B first, or all rows in one insert, leaves the same, and so does an upsert of rows that can be inserted. If a delete and then an insert of A succeed, the filter was true of every row with a key of A, and exactly the rows on which it was not true and those of A are left: if the filter is true only of rows with keys of A, this is what an upsert of A leaves. An insert of A and then a delete leave exactly those of the rows there were and of A on which the filter is not true.", "quantifier": "all schemas with keys, sets of rows, filters, reachable states, handles, numbers and schedules of actors, things done between the two operations that leave the branch as it is", "why_tests_cant": "Tests insert once or twice into small tables in one file; which keys the second insert finds depends on how rows were divided into files and manifests, of which there are unboundedly many ways.", "anchors": ["python/src/space/core/ops/insert.py:79-134", "python/src/space/core/ops/delete.py:84-180", "python/src/space/core/runners.py:239-286", "python/src/space/ray/ops/insert.py:34-60"]}
{"id": "C92", "title": "A delete removes what a read with its filter shows", "statement": "If a delete with a filter succeeds, the rows that a read with this filter returned just before, together with the rows there are afterwards, are exactly the rows there were; afterwards a read with the filter returns no row, through any table object on the branch. So a user can look at what a delete will remove.", "quantifier": "all schemas, filters, reachable states, handles, layouts of rows into files and manifests, local deletes and deletes by Ray", "why_tests_cant": "Reading and deleting decide separately which files to open and which rows match; tests compare them for a few filters on tables of one or two files.", "anchors": ["python/src/space/core/ops/delete.py:84-180", "python/src/space/core/ops/read.py:47-152", "python/src/space/ray/ops/delete.py:32-70"]}
{"id": "C93", "title": "What was inserted or upserted can be read back by its keys", "statement": "If an insert or an upsert of rows A succeeds, a read on that branch with a filter that, of the rows there were before, is true only of rows with keys of A returns exactly those rows of A on which the filter is true, through any table object, however the rows are divided into files, and also where the upsert loses other rows.", "quantifier": "all schemas with keys, sets of rows, filters, reachable states, handles, layouts of rows into files and manifests, numbers and schedules of actors", "why_tests_cant": "Whether a row just written is found depends on the statistics of the file that holds it and on what became of the files with older rows of its key; tests look at a few rows in one or two files.", "anchors": ["python/src/space/core/ops/insert.py:79-134", "python/src/space/core/ops/read.py:47-152", "python/src/space/core/storage.py:369-400", "python/src/space/ray/ops/insert.py:34-60"]}
{"id": "C94", "title": "What was deleted or replaced can be put back", "statement": "If a delete with a filter succeeds and the rows that a read with the filter had returned before are then appended or inserted, on the version that the delete left, the table has exactly the rows it had before the delete. If an upsert succeeds and the rows that it replaced are then upserted, the table has exactly the rows it had if and only if the first upsert had no new key.", "quantifier": "all schemas with keys, filters, sets of rows, reachable states, handles, local operations and operations by Ray, things done between the two operations that leave the branch as it is", "why_tests_cant": "Whether everything is back depends on how deletes and upserts rewrite files of which only some rows go; tests do this for a few small tables.", "anchors": ["python/src/space/core/ops/delete.py:84-180", "python/src/space/core/ops/insert.py:79-134", "python/src/space/core/ops/append.py:118-216", "python/src/space/core/ops/read.py:47-152"]}
{"id": "C95", "title": "Reads with two filters, with both and with either fit together", "statement": "Of one version of a table, a read with `f and g` shows each row as often as that one of the reads with f and with g that shows it less often, a read with `f or g` as often as the one that shows it more often, and all show the rows in the same order. If one of these reads fails, all fail, with the same error.", "quantifier": "all schemas, pairs of filters, reachable states, handles, versions and tags", "why_tests_cant": "Each of the reads skips other files, by conditions built from the shape of its filter; whether the results fit together depends on all filters and all layouts of files.", "anchors": ["python/src/space/core/manifests/falsifiable_filters.py:98-190", "python/src/space/core/manifests/index.py: read_index_manifests", "python/src/space/core/ops/read.py:47-152"]}
{"id": "C96", "title": "The diff over one commit says what was asked for", "statement": "After an append or insert succeeds, the diff from the version before to the version after, by any handle, adds exactly the rows given and deletes nothing. After an upsert succeeds, it adds exactly the rows given and deletes exactly those of their keys that were there; likewise for each transaction of a refresh, with the rows it appends and the keys it deletes. After a delete succeeds, it adds nothing and deletes exactly the keys of the rows that a read with the filter showed before.", "quantifier": "all schemas with keys, sets of rows, filters, reachable states, handles, layouts of files, batch sizes, local operations and operations by Ray", "why_tests_cant": "What the change log has depends on which files are visited and how the rows to delete lie in them; tests look at the log of a few small tables.", "anchors": ["python/src/space/core/ops/delete.py:84-180", "python/src/space/core/ops/insert.py:79-134", "python/src/space/core/ops/append.py:118-216", "python/src/space/core/ops/change_data.py:49-161", "python/src/space/core/ops/utils.py: merge_patches"]}
