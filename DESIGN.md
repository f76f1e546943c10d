# Formal model of google/space (python), in Lean 4

The subject is `/repo/python/src/space`, read as text; nothing of it is run.  The model
lives in `lean/Verif`; `lake build` in `lean/` checks everything.  Paths of source files
below are relative to `python/src/space`.

* `properties.jsonl` — the properties in English.
* `MANIFEST.json` — which theorems state them.
* `lean/Verif/Props/*` — those theorems, each with an example that meets its hypotheses.
* `seeded/LOG.jsonl` — wrong programs the theorems were tried on.
* `tools/axioms.sh` — prints the axioms of all theorems in the manifest.

## Conventions

* Exceptions are values (`Except Err`); a computation that touches files is a function of a
  `World` (files, uuid counter, log of file operations) that returns a result or an error and
  the world it leaves, also in the error case.
* What the code gets from outside and only passes on or branches on is a parameter that
  theorems quantify over: byte sizes, row group and chunk cuts, size limits, Arrow compute
  functions the code does not name, the iteration order of Python sets, user functions, schedules
  of Ray actors.
* A system (`Sys`) is a world and any number of handles.  A step is a whole API call of one
  handle, the opening of a handle, or one of begin / compute / commit (or check / write) of a
  mutation that other handles run interleaved with.  `Reach E s P σ` says that `σ` is reached
  by steps that satisfy `P`.
* Where a property is false of the code, the negation is proved on a concrete witness
  (`…_violated…`) and the strongest positive theorem found is kept as `…_partial`, with what
  is missing spelled out in its comment.

Restrictions on histories used by theorems (all in `Spec.lean` or beside the theorem):
`anyStep` none; `solo` one handle, whole calls; `tidy` commits are atomic and references are
changed through handles that are up to date; `calm` tidy, and no branch is removed while a
mutation on it is under way; `keeping` no delete or upsert loses a file; `tight` deletes
change every file of the manifests they look into; `logging` no append_parquet; `noRevive`
only reachable snapshots are tagged by id; `sized` batches below the documented bounds;
`keyedOn b` the branch is only changed by insert, upsert and delete.

## Layout

| module | models |
| --- | --- |
| `Base`, `Filter` | association maps, values with a total order, rows; Arrow filter expressions with three-valued logic, `manifests/falsifiable_filters.py` |
| `World`, `Storage` | metadata messages, files; `storage.py`: create, load, reload, commit, references, data_files, versions, `Transaction` |
| `Manifest` | `manifests/index.py`, `manifests/record.py` |
| `Append`, `Read`, `Delete`, `Insert`, `ChangeData`, `Load` | `ops/*.py`, `loaders/*.py` |
| `RayWrite` | `ray/ops/append.py`, `insert.py`, `delete.py` |
| `Runner` | `runners.py`: the bodies of mutations, the `transactional` decorator, API calls; for Ray `ray/runners.py` |
| `Jobs` | `jobs.py`: results of mutations with the statistics they report |
| `Crash` | metadata writes at the granularity of file operations |
| `Ray`, `Views`, `Join`, `Chains` | `ray/ops/change_data.py`, `join.py`, `utils.py`, `core/transform/*.py`, reading in `ray/runners.py`, `ray/data_sources.py` |
| `MV` | `ray/runners.py` refresh of materialized views |
| `Schema`, `Paths`, `RandomAccess`, `Source`, `Serializers`, `Plans`, `Catalog` | `schema/*`, `utils/paths.py`, `random_access.py` and `ops/read.py` addresses, `serializers/base.py`, `transform/plans.py` and `views.py`, `catalogs/directory.py` |
| `AtomicWrite`, `LazyImport` | `fs/arrow.py` at the level of file system calls, `utils/lazy_imports_utils.py` |
| `Spec` | vocabulary of the statements: what a version reads as, systems of handles, layouts |
| `Memory`, `Refine`, `RefineStep`, `Filled` | the table in memory C51 refers to, and the simulation; storages without empty files |
| `Shared`, `Serial` | the table in memory used by several at once that C60 refers to, and the simulation |
| `*Lemmas`, `Mutations`, `Gather`, `Bodies`, `Effects`, `RowEffects`, `Progress`, `Landing`, `StatsInv`, `Diffs`, … | helper lemmas only |
| `Demo` | small concrete storages for examples and counterexamples |
| `Props/*` | the property theorems |

## Trusted base

* The Lean 4.33.0 kernel.  Every theorem in the manifest depends on at most `propext`,
  `Classical.choice` and `Quot.sound` (`tools/axioms.sh`); no own axioms, no `sorry`, no
  `native_decide`, no `bv_decide`.  No Mathlib module is imported.
* The reading of the Python source recorded in the comment of each definition.
* Assumptions about what lies outside, each stated where it enters:
  * Files: writes of new files and of the entry point by rename are atomic at the granularity
    of `World.log`; a file under a uuid name is not touched by anyone but its writer; uuids do
    not repeat (a counter in the world); user files given to `append_parquet` and
    `append_array_record` do not change and have the columns of the schema (the code does not
    check it; `Admissible`); files of different storages are disjoint; mkdir outcome is a
    parameter; no symbolic links.
  * Parquet and Arrow: what is written is read back; a read with a filter returns exactly the
    rows on which it is true; `Table.filter` drops rows whose mask is null; Kleene and/or;
    row-group statistics are present and are the min/max of the non-null leaf values; filters
    are well typed; `str` of a filter is injective where the code keys on it; the columns of a
    table have distinct names; `schema.field` raises KeyError on duplicates; slices past the
    end are empty; `group_by`/`join` as documented (inner join, every pair once).
  * ArrayRecord returns the i-th record, raises for others; file names of records with
    reading instructions `name[a:b]` as documented.
  * Protocol buffers, pickle, substrait and the JSON of extension types round trip; user
    defined functions do not raise, are functions of the rows of a batch, and are row-wise
    where a theorem says so.
  * Ray: calls to one actor run in the order submitted; a table is written in one step
    (actors only touch files they named); `ray.get` re-raises; after an exception further
    writes of other actors are left out (nothing refers to them); datasets may reorder and
    regroup blocks; a dataset without tasks is empty; `repartition(0)`, `None` blocks and
    `from_arrow_refs([])` are parameters or as stated; float `ceil` division is exact.
  * A diff is a lazy generator; the model evaluates it to the end right after the call.
  * `versions()` sorts by id; what matters is that sorting permutes.
* Simplifications: a float is its place in the order of floats, so 0.0 and -0.0 are one
  value, and there is one NaN; a literal compared with a float column is taken in the type of
  the column.  Comparisons with NaN are false except `≠`; Parquet leaves NaN out of minimum
  and maximum; `str` writes all NaNs alike.  Time stamps are not modelled
  (no result depends on them); threads inside Arrow, TensorFlow feature encoding, bytes of
  file formats, transport, logging and performance are not modelled; a proto map returns ""
  for a missing UDF name where the model says KeyError.  Filters that Arrow cannot convert to
  substrait (such as `isin`), and a filter that is a cast and mentions no function, raise
  before anything is read or written; expressions stand for the others.  No column is
  called `__ROW_ID`: delete appends a column of that name (`delete.py:99-102`) and would raise
  KeyError when it looks it up (`delete.py:225`).
* `write_proto` puts a file in place in one step; `Verif/AtomicWrite.lean` derives this from
  the file system calls it makes (C69), given POSIX names, inodes and `rename`.
* Not modelled: TensorFlow's encoding of features (a parameter of the serializers), logging,
  `proto_to_text` and abstract base classes; `ray/options.py` and `options.py` are parameters.

## What was found

Behaviour that contradicts a property, proved by witness in the theorem named:

1. Snapshot ids are reused after `remove_branch`: `C02_violated`, `C10_violated`, an ABA
   change passes the conflict check `C12_violated`, keys stop being unique `C09_violated`.
2. `add_tag`, `add_branch` and their removals do not reload: a stale handle overwrites
   commits, `C17_violated`; `C13_violated`.
3. The check and the write of a commit are separate operations: `C12_split_violated`; so are
   those of create: `C16_violated`.
4. `add_branch` and `add_tag` without a version use main: `C41_violated`.
5. Delete loses files: if no row of the modified files survives, the untouched files of the
   same manifests are dropped: `C04_violated_loss`, `C08_violated_loss`, `C19_violated_loss`,
   `C35_violated`.  The manifest written for the untouched files is left over, used by nothing: `C80_violated`.
6. Delete also removes rows on which the filter is null: `C04_violated_null`,
   `C08_violated_null`.
7. Pruning is wrong for `not` before a comparison and for `!=` between two keys:
   `C05_violated_not`, `C05_violated_ne`, `C04_violated_not`.
8. The position of a column is used as the index of its Parquet leaf: `C06_violated`,
   `C05_violated_nested`; and of its name among all names, nested ones included, so that a
   filter may silently be tested against the statistics of another column: `C05_violated_name`.
   A filter may also raise although its column exists: `C79_violated`.
9. Null keys cannot be inserted: `C07_violated`.
10. `append_parquet` writes no change log: `C21_violated`, `C21_parquet`.  Relative patterns
    give unreadable files: `Paths.C34_violated`.
11. Byte statistics are wrong after deletes that look at unchanged files: `C36_violated`;
    `C36_effect` gives the error of every delete.
12. A record field before an index field makes every append fail: `C53_violated`.
13. Reference reads ignore the batch size: `C38_violated`.
14. Random access sorts addresses by file and row and drops repetitions, so that after a
    delete element 0 is not row 0 and after some Ray deletes elements are missing:
    `C32_violated_order`, `C32_violated_repeated`, `C64_violated_order`, `C64_violated_count`.
15. Not-null marks of nested fields are lost: `C28_violated`, `C29_violated`.
16. Replaying a diff by key fails if keys are shared: `C19_violated_keys`.
17. `reload` reports a change after an own commit: `C50_violated`.
18. Views: a filter is applied to the source before the functions, `C44_violated`,
    `C44_violated_new`; joins ignore it, `C44_violated_join`; join partitions with no rows on
    one side, null statistics, renumbered keys and versions of self-joins: `C43_violated`,
    `C43_violated_null`, `C43_violated_udf`, `C43_violated_version`.
19. Catalog names with a slash are not listed: `C49_violated`; plans store a relative
    location as given: `C49_violated_cwd`.
20. Materialized views take their own snapshot id for that of the source they were refreshed
    to: if the view drops all rows of a commit, `C26_violated_skip`, or a branch of the source
    took an id, `C26_violated_branch`, commits are applied twice or `refresh` raises.  The id
    is taken before the storage is reloaded: `C26_violated_stale`.  Rows are deleted by the key
    of the source: `C26_violated_keys`, `C26_violated_shift`.  Deleting a row the view dropped
    ends as FAILED forever: `C26_stuck` (the comment of `View.filter` says it is fine).  An
    up-to-date refresh raises: `C27_violated`.
21. Rows that share a stored record: Ray deletes that rewrite two files of one manifest,
    `C63_violated_delete`, and a record file given twice to a load, `C63_violated_load`.
22. A record field listed twice is accepted, but joins that read it by reference raise:
    `C65_violated`.
23. `append_array_record` counts the bytes of loaded record files in the statistics, but no
    record manifest lists these files: `C66_violated`.
24. NaN in a float key: `x != 1.0` skips a file with the keys 1.0 and NaN and loses the row
    with NaN (`C05_violated_nan`), as statistics leave NaN out (`C06_violated_nan`); inserting
    a key with NaN that is there succeeds (`C07_violated_nan`, `C09_violated_nan`,
    `C58_violated_nan`), though twice in one insert it is refused; upserting it duplicates the
    row (`C08_violated_nan`).  Joins drop rows with NaN keys.
25. A file in which a row group without values of a key (nulls and NaN only) follows one with
    values cannot be listed: the write raises TypeError, in the reverse order it succeeds
    (`C68_partial`).  `index_compressed_bytes` and `index_uncompressed_bytes` are the sizes of
    the primary key columns only (`C68_partial`), not of the index files.
26. Temporary names of metadata files carry 32 random bits only; two writers of the entry point
    that draw the same leave a file with neither message: `Disk.C69_collision`.
27. Lazy imports: an attribute of a module that has the name of a module imported by the same
    statement is not found, and a module imported from one in use gets that one's
    attributes: `LazyImport.C70_violated`, `LazyImport.C70_violated_loaded`.
28. With a filter, Ray tasks announce all rows of their files; `count()` on the dataset is then too
    large, and so is the number of partitions made of it: `C71_violated`.
29. The branch `main` cannot be named as a version: `read(version="main")` and diffs at it raise
    VersionNotFound, though every other branch can: `C73_main`, `C73_violated`.
30. `view.filter(fn, input_fields=...)` gives rows with only these columns but claims the full schema
    of its input; a transform on top that uses another column is accepted and raises KeyError when
    read: `C74_violated`, `C74_violated_read`.
31. `View.ray_dataset(read_options=o)` of a transform writes its input fields into `o.fields`: the next
    call with `o` raises UserInputError, or silently reads fewer columns from a dataset.  `View.join`
    appends its key to the lists of its caller, which the view holds on to: another join by another
    key with the same list makes the first view raise when it is read.  `C75_again`,
    `C75_violated`, `C75_violated_join`.
32. A transform on top of a join does not pass on the join options (`transform/utils.py:30`): a
    partition function is ignored.  The rows are the same (`C76`).
33. A refresh that raises after some of its transactions have been committed returns no result
    for them: the view has changed and the caller is not told what was done: `C77_violated`.
34. `Dataset.index_files` does not reload, unlike every read: a handle that is not up to date names the
    files of an old version (`C84_violated_stale`).  A Ray delete that rewrites two files of a manifest
    lists the other files of the manifest twice (`C84_violated_delete`), which is C23 seen from the
    manifests.
35. The options `max_uncompressed_row_group_bytes` and `max_uncompressed_file_bytes` are described as
    maxima but are thresholds: every file that an append closes before its last is larger than the
    option says (`CutAt` in C85), by up to the size of one table given to it.

Noted while reading, not the subject of a theorem: a commit that raises after drawing its id leaves
a gap in the ids of the handle.

## Per property

* **C01** Append adds exactly the given rows. *proved*: `C01`, `C01_any`, `C01_succeeds`. `LocalAppendOp` is a state machine over tables with arbitrary size functions. Invariant (`AppendLemmas`): finished files ++ open writer ++ cache are the rows written so far and addresses resolve. `Landing` carries it through commit, `TableRead` to a read on any handle. — Whole calls in any history and interleaved commits in calm histories; success for rows that fit.
* **C02** A committed snapshot id always reads the same data. *partial*: `C02_violated`, `C02_partial`, `C02_covered_partial`, `C02_effect`. Negation by a call sequence (ids reused after a removal, and stale handles). Partial: C03's invariant for ids that stay reachable. C02_covered_partial allows branch removals: the read stays as long as main or some branch or tag points at an id not below n, reachable or not. C02_effect: one step changes the meaning of id n only by a commit that draws n when all references are below n. — False as stated: an id can be reused after remove_branch, or overwritten through a stale handle (witnesses). Proved while some reference is at or above the id; one step changes the meaning of an id only by a commit that draws it when all references are below.
* **C03** Snapshots still reachable from a branch or tag are never changed. *proved*: `C03_tidy`, `C03`, `C03_newId`. Invariant over histories: parents are smaller than children, every head is at most the maximal id, new ids are larger, files are only added. `C03_tidy` for many handles, `C03` for one handle in any order. — Any number of handles for whole-call commits with references changed through up-to-date handles (C03_tidy); one handle in any order (C03).
* **C04** Delete removes exactly the matching rows. *partial*: `C04_effect`, `C04_files`, `C04_partial`, `C04_exact_partial`, `C04_sound`, `C04_succeeds`, `C04_violated_null`, `C04_violated_loss`, `C04_violated_not`. `FileSetDeleteOp` file by file; `DeleteSem` shows that the patch replaces each modified file by its surviving rows; `DeleteSafe` is the exact condition on the layout under which no file is lost. `C04_sound`: whatever happens no row appears that was not there. `C04_succeeds`: a delete with a matching row succeeds. `C04_effect` says for every layout which rows a delete leaves (`leftBy`) and that this is the stated effect if and only if `Spared` holds of the layout. `C04_files` says the same for every filter on index fields, null or pruning wrongly: the files that are changed are marked (`leftMarked`), each has a row on which the filter is not false, and, for filters that fit, every file with a matching row is marked. — Exact effect on every layout, for every filter on index fields up to which files without matching rows are changed, and for filters that fit and are null on no row with the exact condition under which it is the stated one; the stated effect on layouts that lose no file; counterexamples for null rows, lost files and negated comparisons.
* **C05** Reading with a filter equals filtering a full read. *partial*: `C05_partial`, `C05_sound_partial`, `C05_violated_not`, `C05_violated_ne`, `C05_violated_nested`, `C05_violated_name`, `C05_violated_nan`. Kleene evaluation of filters against the rewritten filter over min/max, by induction over expressions (`FilterLemmas`, `StatsLemmas`), lifted through manifests to reads. Witnesses for the unsound operators. NaN is in no range of statistics, so a file with it may only be skipped if the filter is false of NaN: true of all comparisons but `≠` (`C05_violated_nan`).  References into structs count as their top-level column, as in the code; with a struct field named like a key, filters on another column are tested against the key's statistics and rows are lost silently (`C05_violated_name`). For all filters and schemas, including those of the witnesses, `C05_sound_partial`: what a filtered read returns is a sublist of the rows of the full read on which the filter is true, since pruning only skips whole manifest entries. — Proved for filters without not before a comparison and without != between two keys or between a float key and a literal, on schemas whose keys precede nested and record columns. Missing because false of the code: the other filters and schemas, five counterexamples proved. For every filter on plain columns and every schema, a filtered read returns only rows of the full read on which the filter is true, in order and no row more often (C05_sound_partial).
* **C06** Manifest min/max bound every primary key value of the file. *partial*: `C06_partial`, `C06_exact_partial`, `C06_logical_partial`, `C06_violated`, `C06_violated_nan`. Merge of row-group statistics by induction over row groups; invariant over all stored manifests. `C06_exact_partial` (`Props/Pruning`): the recorded values are the least and the greatest in the file. `C06_logical_partial` (`Props/Leaves`): the same for logical schemas, where lists and structs of one leaf may precede keys. NaN is left out of statistics (`C06_violated_nan`). — Proved for every stored snapshot of every reachable state and every value but NaN, when keys are preceded by one-leaf columns only; there the recorded values are moreover the least and the greatest of the file. False otherwise: the top-level column index is used as Parquet leaf index, and NaN is in no range; counterexamples proved.
* **C07** Insert is all or nothing on primary keys. *partial*: `C07_partial`, `C07_effect`, `C07_violated`, `C07_violated_nan`. `LocalInsertOp.write` branch by branch; the key filter lies in the fragment where pruning is sound (`KeyFilter`). Failure, success and effect are all stated. The key filter of a row with NaN is true of no row (`primaryKeyFilter_sem`), see `C07_violated_nan`. C07_effect: for keys of every kind, what holds when an insert takes effect, and which inserts are refused. — Full claim for rows without null and NaN in their keys; null keys are never inserted, NaN keys are inserted though they exist. C07_effect says for keys of every kind what a successful insert had and did, and which inserts fail.
* **C08** Upsert overwrites by primary key. *partial*: `C08_effect`, `C08_files`, `C08_partial`, `C08_succeeds`, `C08_violated_loss`, `C08_violated_null`, `C08_violated_nan`. Composition of the delete and the append patch of one snapshot; conditions of C04. `C08_succeeds` gives progress. `C08_effect` gives the exact effect on every layout and the exact condition under which it is the stated one. C08_files: stored keys of every kind, with `keyTruth` the three-valued answer to whether a stored key is among the given ones (unknown for nulls, no for NaN). — Exact effect on every layout for stored rows without null and NaN keys, with the exact condition under which it is the stated one, and for stored rows of every kind up to which files without matching rows are changed (C08_files); the stated effect on layouts that lose no file; counterexamples otherwise.
* **C09** Primary keys stay unique. *partial*: `C09_partial`, `C09_start`, `C09_violated`, `C09_violated_nan`. Invariant by induction over calm histories, from the effects of the mutations. `UniqueKeys`: no two rows have equal keys, where NaN equals nothing; taken as a value it can be there twice, `C09_violated_nan`. — Invariant over all calm histories, where a key with NaN equals no key; violated when a branch is removed and recreated during an insert, and by NaN keys if they are taken as values.
* **C10** Branches are isolated. *partial*: `C10_partial`, `C10_growing_partial`, `C10_effect`, `C10_violated`. Commit touches one branch; heads of other references and reachable snapshots stay. `C10_growing_partial` covers ids.  C10_effect: of all ids, reachable or not, only the one the commit draws can read differently. — False for snapshot ids that are no longer reachable (witness); proved for branches, tags and reachable ids. C10_effect: of all ids, reachable or not, only the one the commit is given can read differently.
* **C11** Tags are immutable aliases. *proved*: `C11`. Invariant over tidy histories: the entry of the tag and its snapshot stay. — Any history of whole-call commits with references changed through up-to-date handles.
* **C12** Conflicting transactions are rejected. *partial*: `C12_partial`, `C12_effect`, `C12_violated`, `C12_split_violated`. Begin, compute and commit as separate steps; theorem about commit when the head changed, in histories without ABA. `C12_effect`, for all histories: what is compared is the id of the head, so FAILED is returned exactly if the branch is stored with another id; nothing is written then. Two negations. — Conflicts are detected for executions in which reference writers do not interleave and no branch is removed and re-created; the code misses an ABA change of the branch head and a commit landing between check and write (negations proved with witnesses). C12_effect: in every state a commit is refused exactly if the id of the stored head differs from the one at the start.
* **C13** A successful commit applies to the snapshot it was computed from. *partial*: `C13_call`, `C13_partial`, `C13_kept_partial`, `C13_violated`. Same system: the patch is applied to the rows it was computed from, and later states keep the snapshot. — Every atomic commit is kept while no stale reference writer or split commit intervenes; the unrestricted claim is false (witnessed).
* **C14** Failed and skipped operations change nothing visible. *proved*: `C14`. All branches of the runner leave stored metadata and entry point; reads on every handle with all options are equal. — All options, versions and branches; errors included.
* **C15** Commit is atomic under crashes. *proved*: `C15`, `C15_create`. World.log lists file operations; for every prefix, with any unfinished new file, a load gives the state before or after. — Crash at every point between file operations, with arbitrary unfinished new files; for every call and every part of a split mutation.
* **C16** Create never damages an existing storage. *partial*: `C16_partial`, `C16_effect`, `C16_violated`. `create` on a world with an entry point; the race of two creators as negation. `C16_effect`: a creator that found nothing replaces, whenever it moves its file, the entry point by that of an empty storage, and touches no other file. — A creator that finds the storage fails and changes nothing. Two creators that both pass the check: the second destroys the storage of the first (proved); the check and the move are separate operations. C16_effect says exactly what a creator that passed the check does at any later time.
* **C17** Tag and branch operations never lose commits. *partial*: `C17_violated`, `C17_partial`, `C17_effect`. Handle up to date: snapshots and reads stay. Negation with a stale handle. C17_effect says, for every handle however stale, what the call leaves: the handle's metadata with the one reference changed. — False through stale handles (witness); proved when the handle is up to date. C17_effect: for every handle, a returning call replaces the stored metadata by the handle's with the one reference changed, a raising one changes nothing.
* **C18** Diff walks exactly the commits between two versions. *proved*: `C18`, `C18_raises`, `C18_exact`. `ordered_snapshot_ids` equals the segment of the ancestor chain; C18_exact: for versions that exist the diff succeeds exactly when `b` is newer, `a` is an ancestor and every commit between has a change log. — Any history of any number of handles. C18_exact: success exactly for newer descendants with logs at every commit. The diff is evaluated to its end right after the call.
* **C19** Replaying a diff reproduces the newer version. *partial*: `C19_partial`, `C19_keyed_partial`, `C19_count_partial`, `C19_bound`, `C19_violated_keys`, `C19_violated_loss`. Change logs against row lists: one commit (`Changes`), then along the chain (`Diffs`). `C19_count_partial` counts rows by key where keys are shared, `C19_bound` bounds them where files are lost (`Props/DiffCount`). — Holds for calm histories in which no delete loses a file, no append_parquet lands and only reachable snapshots are tagged, if keys are unique in the versions between (always so with insert/upsert/delete of rows without NaN keys only). Without unique keys the diff still gives the exact number of rows of every key, and where files are lost an upper bound. False for shared keys and for deletes that lose files.
* **C20** Diffs compose. *proved*: `C20`. Append law for chain segments, errors included. — Any history.
* **C21** Every commit can be diffed. *partial*: `C21_partial`, `C21_commit_partial`, `C21_parquet`, `C21_violated`. For every mutation but append_parquet the diff over its commit reports exactly the changed rows. — All commits but those of append_parquet, which writes no change log; diffs across it raise.
* **C22** Parallel append covers the input exactly once. *proved*: `C22`, `C22_succeeds`, `C22_zero`. `ActorLemmas` and `Gather`: actors run side by side, the invariant of C01 holds for each one because they touch files of their own; shard arithmetic for all sizes (`shardQueues_perm`), sources modulo actors (`sourceQueues_perm`). — Any parallelism, input, list of sources and schedule of actors; C22_succeeds: rows that fit are appended if the parallelism is not zero; C22_zero: with zero nothing changes.
* **C23** Parallel delete equals local delete. *partial*: `C23_partial`, `C23_effect`, `C23_rows_partial`, `C23_status`, `C23_violated`, `C23_violated_loss`. `rayDelete` is a mutation of the model, with one `FileSetDeleteOp` per file and merged patches (`ray/ops/delete.py`), and all invariants of histories cover it. `RaySafe` is the condition on the layout: in every manifest at most one file is cut, and a file that loses all rows is alone. Under it both runners leave the same rows, from any state and with other handles writing meanwhile; elsewhere the claim is false (two counterexamples). `C23_status` gives the statuses: equal, but for a filter that matches no file (local FAILED, Ray SKIPPED). `C23_effect` says for every layout which rows the Ray delete leaves (`rayLeft`, manifest by manifest) and, for rows that are stored once, exactly when these are the right ones (`RaySpared`). — Same rows on layouts where every manifest has at most one file to cut, which keeps a row or is alone, for every filter on index fields; exact rows left by the Ray delete on every layout and the exact condition under which they are the right ones; statuses; counterexamples (rows back and doubled; rows lost) for other layouts.
* **C24** Parallel read equals local read. *proved*: `C24`. Slices [k·b, (k+1)·b) partition every filtered list; block order arbitrary (permutation). — Ray's block order and regrouping are arbitrary; a dataset without read tasks is taken to be empty; repartition(0) may raise (parameter)
* **C25** Parallel diff equals local diff. *proved*: `C25`, `C25_files`, `C25_none`. Ceil-division shards partition the list of files. — any positive number of streams; zero streams raise ZeroDivisionError (C25_none)
* **C26** A refreshed materialized view equals its view. *partial*: `C26_partial`, `C26_violated_skip`, `C26_violated_branch`, `C26_violated_stale`, `C26_violated_keys`, `C26_violated_shift`, `C26_stuck`. Loop of `refresh` by induction over the chain of source commits, with the transaction under way as a second case; one transaction by the effect of `sync`; a change log leads from the view's rows on the parent to those on the commit (Logged, row-wise functions). Histories (`MVReach`): the view's storage at id k always has the view's rows on source snapshot k. Witnesses for five ways this fails, and for a view that is stuck. — Proved for every history of source and view in which refreshes are undisturbed: consecutive source ids, commits that record changes, distinct keys, one view object, row-wise key-keeping views. False otherwise, five witnesses.
* **C27** Refresh is idempotent. *partial*: `C27_partial`, `C27_violated`. `ordered_snapshot_ids` raises for start >= end, after `reload` only; nothing is written, reads are the same. Witness for the raise. — Half proved for every state: an up-to-date refresh changes nothing. The other half is false: it always raises UserInputError.
* **C28** Field ids are unique and stable. *partial*: `C28_ids`, `C28_types_partial`, `C28_open_partial`, `C28_violated`. Mutual induction over nested schemas. — Ids: every field at every level gets 0,1,2,... depth first (all nested schemas). Names, order and types are kept up to nullability; false in full because list and struct fields marked not null become nullable.
* **C29** Schemas survive storage. *partial*: `C29_partial`, `C29_exact_partial`, `C29_physical_partial`, `C29_agree`, `C29_violated`. Mutual induction; the field id manager consumes names depth first. — Names, order, types (as Arrow compares them, without not-null marks) and top-level ids survive in logical and physical form for every supported nested schema. Missing: not-null marks are lost (C29_violated). External: JSON/TFDS encoding of extension types assumed to round trip.
* **C30** Schema validation accepts exactly the supported schemas. *proved*: `C30`, `C30_distinct`, `C30_create`. The validator characterised as an iff with an independent `Acceptable` predicate. — Validation succeeds exactly for acceptable schemas; create additionally requires every nested type to be storable.
* **C31** Record values are resolved to their own rows. *proved*: `C31`. Grouping by file, reading, and scattering back by position, for all address lists. — Both directions: addresses that exist give their bytes position by position, an address that does not exist makes the read raise.
* **C32** Random access covers each address once. *partial*: `C32_partial`, `C32_source_partial`, `C32_distinct_partial`, `C32_sorted_partial`, `C32_get`, `C32_bounds`, `C32_arrow`, `C32_arrow_many`, `C32_violated_order`, `C32_violated_repeated`. Run detection and instruction strings; permutation for distinct addresses, equality for sorted ones. — Every requested address yields its record, grouped by file; order and repetition are preserved only for address lists that are distinct and sorted per file. The full claim is false: order and repeats are lost (C32_violated_order, C32_violated_repeated).
* **C33** Stored paths are portable. *proved*: `Paths.C33_resolves`, `Paths.C33_moved`, `Paths.C33_files`, `Paths.C33_entry`. posixpath join, relpath and normpath written out on character lists. — On character lists with posixpath written out; symbolic links not modelled.
* **C34** Externally loaded files stay readable. *partial*: `C34_parquet_partial`, `C34_records_partial`, `C34_parquet_succeeds`, `C34_records_succeeds`, `Paths.C34_resolves_partial`, `Paths.C34_relative`, `Paths.C34_violated`. Loaders of external files; path part on character lists. C34_parquet_succeeds, C34_records_succeeds: on a branch that exists, loads of files whose rows or index columns fit the schema succeed (a load of no records is skipped). — False for relative patterns: the stored name is joined with the location when read. Holds for absolute names; matched Parquet files must fit the schema (the code does not check it). Loads of files that fit succeed (C34_parquet_succeeds, C34_records_succeeds).
* **C35** Row count statistics are exact. *partial*: `C35_partial`, `C35_effect`, `C35_atleast_partial`, `C35_violated`, `C35_violated_ray`. Invariant over calm histories from the statistics of patches. `C35_effect` says by how much every mutation changes the count on every layout, `C35_atleast_partial` that it never falls below the rows read without Ray deletes. — Holds in calm histories whose deletes and upserts lose no file. In general each mutation changes the count by what it is meant to add and remove (C35_effect), so that the count is at least the number of rows read unless a Ray delete doubles rows; false after a delete that loses a file (4 rows counted, none read) and after a Ray delete (4 counted, 10 read).
* **C36** Byte statistics are exact. *partial*: `C36_partial`, `C36_files_partial`, `C36_effect`, `C36_violated`. As C35 for bytes.  `C36_effect` gives the exact error of every mutation in terms of what a delete does with each listed file (`localDrift`, `rayDrift`): files of rewritten manifests that were not looked into are counted anew, files looked into in vain are taken off, lost files are not.  `C36_files_partial` (Props/Sizes.lean) replaces the byte counts of the manifest rows by the sizes of the key columns in the footers of the files. — Holds in calm histories of appends, inserts, loads, and of deletes and upserts that change every file of the manifests they look into; false after a delete that looks at an unchanged file. C36_files_partial says so with the sizes of the files themselves. C36_effect gives, for every mutation on every layout, the exact error it adds to both byte counts.
* **C37** Merging patches is order preserving and additive. *proved*: `C37_concat`, `C37_groups`. Monoid laws of `merge_patches`.
* **C38** Batch size never changes results. *partial*: `C38_partial`, `C38_refs`, `C38_violated`. `to_batches` and slicing laws through the read model. C38_refs: the batches of a reference read are the opened files, one each in order, with the rows the filter is true of. — Row equality for all batch sizes and all kinds of read, batch bounds for reads that resolve record fields. False for reference reads, which yield whole files (counterexample); C38_refs says exactly what their batches are.
* **C39** Column projection commutes with reading. *proved*: `C39`. Projection lemmas through the read model, errors included. — For every filter, version and batch size, errors included.
* **C40** References follow the naming rules. *proved*: `C40_addTag`, `C40_addBranch`, `C40_removeTag`, `C40_removeBranch`. Success conditions as iff, result and effect of the four calls. — Exact success conditions, result and effect.
* **C41** A new branch starts from the current branch. *partial*: `C41_violated`, `C41_partial`, `C41_effect`. On main the claim holds; witness on another branch; `C41_effect` gives, for any handle, the snapshot a new reference points to: the head of main in the metadata held. — False away from main: the code always uses main's snapshot (witness). C41_effect says which snapshot a new branch or tag refers to for every handle.
* **C42** Logical plans survive storage. *proved*: `C42`, `C42_same`, `C42_succeeds`, `C42_join`. Induction over the chain of transforms; serialised plans with random UDF names; load after moving. — Every view a user can build and materialize loads back as the same view, also after the storage was moved. Every chain of maps and filters has a plan when random ids do not repeat; a join has none, as in the code.
* **C43** Partitioned join equals inner join. *partial*: `C43_partial`, `C43_datasets_partial`, `C43_view`, `C43_returns`, `C43_violated`, `C43_violated_null`, `C43_violated_udf`, `C43_violated_version`. Range filters partition keys (NaN is in no range, and the specification `innerJoin` has NaN equal nothing); a hash join distributes over a partition. Addresses are flattened into two columns before Arrow's join and folded after it; `JoinFold.lean` proves that this makes no difference (`joinPart_rows`, `joinPart_plain`). `View.join` is characterised by an equivalence (`C43_view`). Witnesses for four exceptional cases. — C43_partial: for every pair of source histories, every join of datasets or of transforms that keep the key and its field id, every selection of fields, reference reads and every partition function that splits ranges, a join read that returns gives the inner join of what its inputs read. C43_view: exactly what View.join builds and when it refuses; C43_datasets_partial: the two together, for two datasets. C43_returns: when it returns. False in general: disjoint key ranges give a None block (C43_violated), a manifest without keys raises TypeError (C43_violated_null), map_batches renumbers the key so that the range comes from another column (C43_violated_udf), self-joins ignore the version (C43_violated_version).
* **C44** Views filter their output. *partial*: `C44_partial`, `C44_mv_partial`, `C44_violated`, `C44_violated_new`, `C44_violated_join`. Filter pushed to the source against filter on the output; `Keeps` is the condition on the functions. — for views that do not change on which rows the filter is true; false otherwise because the filter is pushed into the source below the functions C44_violated_join: joins ignore the filter.
* **C45** Serializers round trip. *proved*: `C45`, `C45_refused`, `C45_create`. Pointwise law over the association of field and serializer. — Serialise then deserialise gives the original for every field with a round-tripping serializer; unknown fields refused.
* **C46** A reader sees one snapshot. *proved*: `C46`. A read holds a file set; files are only added, so batches opened later are equal. — Each file and batch may be opened at a different later state.
* **C47** Everything referenced exists. *proved*: `C47`. World invariant (`WOK`) with the crash model. — All snapshots in the stored metadata; files never change.
* **C48** Version listing is complete. *proved*: `C48`. Left outer join of snapshots and references. — For any stored metadata of a reachable system.
* **C49** Catalog lists what was created. *partial*: `C49_created`, `C49_materialized`, `C49_dataset`, `C49_source`, `C49_view_partial`, `C49_lists_partial`, `C49_listed_partial`, `C49_missing`, `C49_nodir`, `C49_violated`, `C49_violated_cwd`. Directories as a map from character lists; datasets and views.  `C49_source` says that the hypothesis `Found` of `C49_view_partial` is met by views on created datasets, with the keys and record fields given then. — Created datasets and views are returned at their location and load by name after any further steps, a name is reported as not found exactly if nothing is there, and listing is exact for direct children. False for names with a slash (created and loadable, not listed) and for views on datasets with a relative location opened from another working directory. C49_source: a dataset found again as the source of a view has the schema, keys and record fields it was created with.
* **C50** Two handles eventually agree. *partial*: `C50_violated`, `C50_partial`, `C50_report`. `reload` gives the stored metadata; `C50_report` gives the exact condition for reporting a change. — Reload sees the last committed state; the reported flag is true spuriously after an own commit (witness). C50_report says exactly when a change is reported.
* **C51** Single-handle histories refine a map from versions to row multisets. *partial*: `C51_partial`, `C51_runs`, `C51_delete`, `C51_upsert`, `C51_violated`. `Verif/Memory.lean` is the specification: rows of each version, the version of `main`, tags and branches, the branch one works on; it knows no files. `C51_partial` is a forward simulation (`Sim`, Refine.lean and RefineStep.lean) over all sequences of calls on one handle: the results mean what the memory answers, and all reads (any version, filters and columns that fit) return the rows it has, up to order. `C51_runs`: every such call can be made. The memory follows the code in three choices: tags and branches without an id are put at the head of `main`; `main` is not a name of a version; a new version gets one more than the largest id that `main`, a tag or a branch is at (an id can be used again after a branch is removed, C02). `C51_delete`, `C51_upsert`: table and memory agree after a delete or upsert if and only if `Spared` holds of the layout, so the condition is exact. That no empty file is listed is not assumed but proved (C59). Missing: filters null on some row, and layouts where files get lost (`C51_violated`). — Every sequence of append, insert, upsert, delete, tag and branch calls on one handle agrees with a small table of versions in memory (Verif/Memory.lean), in results and in all reads of any version. Partial: deletes whose filter is null on a row, and deletes and upserts on layouts where files get lost, are excluded (C51_violated shows they differ; C51_delete and C51_upsert show the condition on layouts is exact); record columns must be last.
* **C52** Record row ids never overflow. *proved*: `C52`, `C52_int32`. Arithmetic invariant of the record writer, carried through all mutations. — Every stored version of every history; hypotheses are the bounds named by the property: bytes counted per value, batch size, record file size limit, size of user record files.
* **C53** Column order is irrelevant to writing. *partial*: `C53_partial`, `C53_refused`, `C53_violated`. Iff on the position of record fields; progress theorem for appends. — False of the code when a record field precedes an index field: every such append is refused (C53_refused, C53_violated). Holds when record fields come last and keys precede nested columns.
* **C54** Record manifests describe the record files. *proved*: `C54`. Invariant of the record writer in the append model. — Record manifests list exactly the record files the append wrote, with right field id, count and bytes; for whole calls in any history and split calls in calm histories.
* **C55** Field id lookups agree with positions. *proved*: `C55`, `C55_keys`. Consequence of the id assignment for lookups by id, index and name. — All created schemas with distinct names.
* **C56** Index and record columns partition the selected columns. *proved*: `C56`. Characterisation of `classify_fields`. — All schemas, record field lists and selections.
* **C57** Reading a view applies its functions to the rows of the source. *proved*: `C57`. Views as functions on row lists; blocks of Ray in any order; batching laws. — for row-wise functions that do not raise; reads without rows must not fail in repartition(0)
* **C58** Ray inserts and upserts have the effect of local ones. *partial*: `C58_partial`, `C58_upsert_partial`, `C58_effect`, `C58_files`, `C58_insert_effect`, `C58_violated_nan`. `rayInsertBody` with the lemmas of C22 for its append and of C07, C08 for check and delete. `C58_effect`: on every layout a Ray upsert does what the local one does. C58_files and C58_insert_effect: as C08_files and C07_effect, for Ray. — As C07 and C08: rows without null and NaN keys; upserts for layouts on which the delete loses no file (see C08_violated_loss), and their exact effect on every layout and for stored keys of every kind; what inserts do with keys of every kind.
* **C59** No data file without rows is written. *proved*: `C59`, `C59_origin`, `C59_listed`. `Traced` records that no Parquet file without rows is put; every lemma about writers carries it (`OpOK.full`: an open writer or a cache has rows), `step_writes` gives it for each step. `C59_origin` lifts it to histories (Filled.lean), `C59_listed` to what heads list. Files that were opened and never closed because an exception came in between are not in the model; nothing refers to them. — Every Parquet index file put by any step of any handle has a row; for whole histories an empty one was there before or is the user's; so no head lists one unless the user loaded one.
* **C60** Handles used at once act like one table in memory. *partial*: `C60_partial`, `C60_answers`, `C60_refresh_succeeds`, `C60_refresh_partial`, `C60_violated_stale`, `C60_violated_torn`, `C60_violated_removed`, `C60_violated_refresh`. Shared.lean says what a mutation does to the rows of a branch in memory (`effect`) and what a sequence of deeds by different users makes of the table (`Mem.deeds`); the number of a new version is left open except that it is above those in use. `Holds` relates the stored metadata to the memory, for no handle in particular. Every step of every handle either keeps `Holds` or takes effect, and then the deed has the same effect in memory (`Holds.step`): commits by `landed`, which gives the state right before the commit and not that at the start of the mutation, with the row effects of C01, C04, C07, C08, C20, C22, C23, C34; loads find in memory what the files of users hold at the end of the run, which is what they held when they were loaded (`effect_mono`); changes of tags and branches by `addReference_cases`, `removeReference_cases`. `C60_answers` adds that whole calls, local or with Ray, loads, and changes of tags and branches succeed exactly if they have an effect in memory. `C60_refresh_partial` (in `Verif/Props/RefreshAnswers.lean`) says the same of transactions of refreshes that delete nothing or some key that is there; without that condition they may fail where they have an effect in memory (`C60_violated_refresh`, the cause of `C26_stuck`). Three runs show that each of the three conditions on interleavings is needed (`C60_violated_stale`, `C60_violated_torn`, `C60_violated_removed`). — Proved for all interleavings in which commits are atomic, tags and branches are changed by up-to-date handles, no branch is removed under a running mutation on it, and deletes, upserts and refreshes meet conditions under which no row is lost (for deletes and upserts the exact ones of C04, C08, C23). Each condition on interleavings is shown to be needed by a counterexample. Answers are compared for all calls except switching branches; a transaction of a refresh must delete nothing or some key that is there, else it may fail (C60_violated_refresh).
* **C61** A mutation loses only to another mutation. *proved*: `C61`. C12 gives one direction. The other: a step that neither commits to a branch nor removes it leaves its head (`Change.still`), so the check of `Transaction.commit` passes if there was none, and the snapshot the patch was computed from is still stored, unchanged (`unmoved`). Then the commit cannot fail: manifests the patch removes are in that snapshot and those it adds are new (`PatchNew`, from the lemma about the body of each mutation), which is all `Storage.commit` asserts (`commit_total`). — For every reachable system, every handle that begins a mutation on an existing branch and every run of tidy steps in between that does not remove the branch: the commit returns FAILED iff the run contains a commit to that branch, and otherwise SUCCEEDED or SKIPPED, according to whether there is a patch; it never raises.
* **C62** Files are written once. *proved*: `C62`, `C62_kept`. `Traced` lists the files put in place between two states; each lemma about writers shows that the path was absent and fits the content (`ownName`). The uuid in a name is drawn from a counter: that uuids do not collide is in the trusted base, so what is proved is that the code draws one for each file it writes and never writes to a path it was given. — C62: the files put in place in any step, in order, are each absent before and named after their kind, except that the last may be the entry point, naming a metadata file in place. C62_kept: content other than that of the entry point never changes in any history.
* **C63** No two rows share a stored record. *partial*: `C63_partial`, `C63_read_partial`, `C63_violated_delete`, `C63_violated_load`. Each write of records numbers the rows of one file from 0 under a name that is new (`NewAddrs`), for every writer of the local and the Ray append; what deletes and upserts keep is a part of what was stored, each stored row at most once (`DeleteOut.subPerm`, `RayMerged.subPerm`). A Ray delete keeps this as long as at most one file per manifest has both rows to delete and rows to keep (`MixedOnce`); a load of record files as long as no file is given twice or is already in use. Both conditions are needed. — Proved for calm histories in which Ray deletes rewrite at most one file per manifest and loads of record files are given files not in use, each once; false otherwise (two counterexamples).
* **C64** A random access source gives the rows of the table. *partial*: `C64_refused`, `C64_arrow`, `C64_external`, `C64_array_partial`, `C64_violated_order`, `C64_violated_count`. `openSource` models `RandomAccessDataSource.__init__` on top of `tableRead` (a reference read), with both kinds of sources; the source keeps addresses and reads record files when asked, so `get` takes the files as they are then. Record columns of stored rows are addresses that exist (`physRows_ok`), files only grow (`run_ok`), so each address gives the cell that a full read shows. Arrow mode is exact (`C64_arrow`); addresses from outside, for example from a join, are looked up each in its own storage (`C64_external`). ArrayRecord mode, the default for one field, is by `C32` and `C63`: a permutation of the column if rows have records of their own; the order is not that of the rows after a delete (`C64_violated_order`), and shared records are given once (`C64_violated_count`). Arrow's grouping is any function with `Grouped`. Indexes are natural numbers; opening by location is loading first. — Proved in full for sources that keep an address table and for given addresses; for the default source on one field the elements are the column up to order if rows share no record; order and number are false (two counterexamples).
* **C65** Joining addresses and looking records up later is joining the data. *partial*: `C65_returns_partial`, `C65_rows_partial`, `C65_source`, `C65_violated`. `C65_returns_partial`, `C65_rows_partial` (record fields listed once; otherwise `C65_violated`): flattening and folding addresses makes no difference (`joinPart_plain`), and what a side of a join reads is, for each stored row, the row itself or the row with its records (`shown`), restricted to the same columns in some order (`side_rows`). Both ways of reading have the same keys, columns and nested cells (`TwoWays`), so each part of the join returns or fails in both; `innerJoin` commutes with looking cells up because a record column is never the key. `C65_source` puts `C64_external` on top: every record column of a joined row holds an address that exists in the storage of its side (`join_addrs`), and files only grow. `fetch`, `fetchRow` are the specification. Ray is any environment that returns (`Smooth`), partition functions are any that split ranges. — Joins of datasets, as in C43. False if a record field is listed twice: C65_violated; otherwise proved.
* **C66** Record bytes in the statistics are the bytes of the listed record files. *partial*: `C66_effect`, `C66_partial`, `C66_violated`. `C66_effect`: for every mutation that takes effect the record bytes of the head grow by what its new record manifests list plus, for `append_array_record`, the bytes of the loaded records. `C66_partial`: without such loads the statistics of every stored snapshot are the sum over the listed record files (`listedBytes`), by induction over the history with `snaps_invariant`; deletes may lose rows or files, they never touch record manifests. Loaded record files are counted and listed nowhere (`C66_violated`). Bytes of appended records are `column.nbytes` of Arrow (a parameter of the environment), bytes of loaded records are their lengths. — Exact growth of the record bytes for every mutation; equal to the bytes of the listed record files in every calm history without loads of record files. False after append_array_record, which counts files that no manifest lists (C66_violated).
* **C67** A filter opens exactly the files whose key ranges admit it. *partial*: `C67_partial`, `C67_not`. `C67_partial`: statistics are the least and greatest values of the file (`fileStats_exact`); the manifest filter of a condition keeps a manifest row exactly if the ranges admit the condition (`tells`, by induction over the condition), where `Admits` says of each comparison that it is true of some values in range. Columns other than keys have no statistics and admit everything. The files are those of the version, filtered, in order. `C67_not`: for every filter, schema and state, `not e` opens no file that `e` opens, or both open all, as the condition on ranges is negated with the filter. — Proved for filters built by and/or from comparisons of columns and literals other than NaN, without != between two keys, on schemas whose keys precede nested and record columns. Missing: not and != between keys, for which files that match are skipped (C05_violated_not, C05_violated_ne), and keys after nested columns (C05_violated_nested). C67_not: for every filter, not opens none of the files that the filter opens, unless both open all.
* **C68** A manifest row says what its file holds. *partial*: `C68_partial`, `C68_stored_partial`. About one call of `IndexManifestWriter.write` (`manifestRow`), for all row groups, by induction over row groups and key columns; `keyColumns`, `keySizes`, `Listable` and `RowOf` are the specification.  Partial as C06: keys after nested columns get the statistics of other leaves (`C06_violated`).  `C68_stored_partial` (Props/Sizes.lean): an invariant of all histories (`reach_have` in Verif/AllSteps.lean, also of what handles know and are about to commit), that every row of every manifest of every stored version still describes the file it names, whether the row was written by an append, a delete, a Ray job or a load, or carried over. — keys that are plain columns before the first nested column; otherwise statistics and sizes of other leaves are recorded, see C06_violated. C68_stored_partial: in all histories every row of every stored manifest describes the file it names.
* **C69** Metadata files are replaced in one step. *proved*: `Disk.C69`, `Disk.C69_read`, `Disk.C69_whole`, `Disk.C69_ends`, `Disk.C69_parse`, `Disk.C69_collision`. `Verif/AtomicWrite.lean` takes `write_proto` and `read_proto` apart into file system calls (check, open, write a piece, close, move; open, read a piece) on names and inodes.  Invariant over all interleavings: the temporary file of each writer holds the part of its message written so far, no reader has a temporary file open, inodes of visible files never change.  `C69` is per step (so the order of calls in time is kept), `C69_read`, `C69_whole`, `C69_ends`, `C69_parse` follow.  `C69_collision`: with equal random ids (32 bits) the file ends up with neither message.  This justifies that the storage model puts a metadata file in place in one step (`World.put`). — Assumes that writers of one file draw different random ids; C69_collision shows that this is needed.
* **C70** Lazy imports behave like imports made at the first use. *partial*: `LazyImport.C70_partial`, `LazyImport.C70_violated`, `LazyImport.C70_violated_loaded`. `Verif/LazyImport.lean` models the objects, the cache from arguments to objects and the import system as a parameter.  `C70_partial`: induction over the statements of all blocks and over all later lookups, compared with `eager`.  False for attributes named in the import statement itself (`C70_violated`: after `from x import a`, `a.a` is a lazy module) and for imports after a use (`C70_violated_loaded`: the cached parent hands its own module on). — Proved for lookups of attributes that are not names in the import statement, with all blocks before the first use; false otherwise, two witnesses.
* **C71** Row counts announced by Ray read tasks are the rows they yield. *partial*: `C71_partial`, `C71_filter`, `C71_violated`. `fileCounts` are the numbers beside `fileTasks`, `rayCount` is `Dataset.count`.  `C71_partial`: slices of a file of n rows have the announced lengths, and the sum over all tasks is the number of rows of the blocks, for all reachable states.  False with a filter (`C71_violated`): tasks announce the rows of the file, not those that pass, so `count` is too large and blocks smaller than the batch size.  `C71_filter`: with any filter the numbers are those of all rows of the opened files, bounds from above, and right just when the filter is true of all of these rows. — All reads without a filter. Missing: with a filter the numbers are wrong (C71_violated); C71_filter says what they are: bounds from above, exact just when the filter is true of all rows of the opened files.
* **C72** A job reports exactly what it did to the storage statistics. *partial*: `C72_partial`, `C72_rows`, `C72_violated`. `Verif/Jobs.lean` has `commitResult`, `mutateResult`, the functions of `Storage.lean` and `Runner.lean` with the reported statistics, and proves that they run the same as those without.  `C72_partial`: from the post-conditions of transactions, for all reachable states, whole calls and one-step commits.  `C72_rows`: with `C35_effect`, the reported rows are those the mutation is meant to add less those it is meant to remove.  False when another commit falls between the check and the write of a commit (`C72_violated`; finding 3): the job reports a row more while the head counts as many as before, the other commit being lost. — Proved for whole calls and one-step commits; false when another commit falls between the check and the write.
* **C73** A version can be named by its id, by a tag or by a branch alike. *partial*: `C73_partial`, `C73_main`, `C73_violated`. `Names` says what a name in `versions()` stands for.  `C73_partial`: in every reachable state a listed name gives the same reads and diffs as the id of its snapshot and, for branches, as a handle that is on it; the snapshot exists.  `C73_main`: "main" is never listed, and reading or diffing at it raises VersionNotFound in every reachable state; `C73_violated` is a concrete case (finding 29). — False of 'main', which no read or diff accepts as a version (C73_main, C73_violated).  Proved for all listed names, all reachable states.
* **C74** The rows of a view have the columns the view declares, and an accepted view can be read. *partial*: `C74_partial`, `C74_violated`, `C74_violated_read`, `C74_join`, `C74_over_partial`. `Chain` is what `map_batches` and `filter` accept, `View.declared` the columns the rows have in fact, `View.Whole` that no filter was given fewer input fields than its input has.  `C74_partial`: by induction over views, reading any accepted view whose filters are whole does not raise for a column and gives rows with exactly the fields of its schema.  `C74_join` (`Props/ColumnsOver`): the rows of every join have the columns it declares, in order; `C74_over_partial`: chains on top of joins.  False of filters with `input_fields` (`C74_violated`): rows have only these columns though the schema claims all; a filter on top of it is accepted and its reads raise KeyError (`C74_violated_read`; finding 30). — False of filters with input_fields.  Proved for all chains without such filters, on datasets and on joins, and for joins.
* **C75** Calls leave the objects of their caller as they were. *partial*: `C75_partial`, `C75_again`, `C75_violated`, `C75_join_partial`, `C75_violated_join`, `C75_features_partial`. `Verif/Chains.lean` has the functions with the objects they are given: each also returns the object as it leaves it; lists of names are in a heap, so that views can share them.  `C75_partial`: read options are left alone by datasets and by views that refuse them, transforms change only `fields`, and the result is that of `viewBlocks`.  `C75_again`: after any call of any transform over a dataset, every later call of any transform with the same object raises.  `C75_join_partial`: `join` builds the view it builds of copies of its lists, and changes only lists that do not name the key, by appending it.  `C75_features_partial`: the keys of `feature_fields` stay.  False (`C75_violated`, `C75_violated_join`; finding 31): a second use of the options raises or, on a dataset, projects columns away; a second join by another key with the same list breaks the first view. — False of transforms, of joins with lists that do not name the key, and of feature_fields with locations.
* **C76** Transforms on top of a join give what their functions make of the joined rows. *proved*: `C76`, `C76_rows`, `C76_refused`. `chainCall` with `joinLeaf` is `_ray_dataset` of a chain over a join.  `C76`: induction over the chain, for any storages; rows of the join have its output columns (`joinBlocks_cols`), so selecting columns does not raise.  `C76_rows` adds C43.  `C76_refused`: a list of fields or a read of addresses is refused, never ignored. — For functions that work row by row and chains that ask for columns their input has; reads with a list of fields or of addresses raise (C76_refused).
* **C77** A refresh reports all that it did. *partial*: `C77_partial`, `C77_sum`, `C77_raised`, `C77_violated`. `resultLoop` is `refresh` with the variables the code has and the results it returns; `refreshResults_state` shows that it runs as the model of C26, with the same states.  An invariant of the loop (`Telling`) carries the results so far and that the pending patches are sound (`applyChange_ok`, `merge_ok`); each commit is `txnCommit_post`.  Calls that raise lose the results of transactions that succeeded (`C77_violated`); what they leave behind is still whole transactions (`C77_raised`).  As in C26, nobody else writes to the storage of the view during the call. — Proved for every call that returns; a call that raises keeps the transactions it has committed but returns no results for them (counterexample), and C77_raised says what it leaves behind.
* **C78** FAILED means an error of the library; every other exception reaches the caller. *proved*: `C78`, `C78_gone`, `C78_others`. `exec` of a mutation is the handler of `transactional` around the operation; `libraryErrors` lists the classes of `errors.py` apart from the model. A commit right after the operation finds its branch where it was (`exec_total_of`), so it raises nothing of its own. — whole calls; a commit with others in between is C61
* **C79** A read raises only if it asks for something that is not there. *partial*: `C79_partial`, `C79_columns`, `C79_violated`. `IsThere` says from the stored metadata alone which versions exist; `FlatBefore` is the condition on the schema that the name lookup of `_min_max` needs. The read is taken apart into version (`isThere_iff`), manifest filter (`manifestFilter_iff`) and files (`readSnap_known`, from the invariant that every listed file is stored whole). False of filters on columns behind a struct or record field (`C79_violated`). — False of filters on a column that has a struct or record field before it: building the manifest filter raises KeyError (C79_violated). Proved for all other filters, all versions, all options and all reachable states, as an equivalence; unknown columns exactly (C79_columns).
* **C80** A mutation leaves no file behind that the table does not use. *partial*: `C80_partial`, `C80_staged_partial`, `C80_delete_partial`, `C80_upsert_partial`, `C80_ray_partial`, `C80_refresh_partial`, `C80_skipped`, `C80_violated`. `InUse` is stated on the stored files and the new version only. `Verif/Orphans.lean` follows each file from the write to the patch (`Moves`, `Keeps`, `finish_puts`, `CleanAll`, over all mutations in `body_clean`), and `runMutation_puts` through the commit. False of deletes that lose files (`C80_violated`, finding 5). `C80_delete_partial` and `C80_upsert_partial` show that the left-over manifest and the lost files of C04 are one defect: `deleteFiles_left` says that a manifest is left over only if no row of a changed file survives while a file of a dropped manifest was not changed, which is what `DeleteSafe` excludes. `C80_upsert_partial` is for upserts of both runners; `C80_ray_partial` and `C80_refresh_partial` say the same of Ray deletes (`RaySafe`) and of the transactions of a refresh. — False as stated: a delete that keeps no row of the files it changes writes a manifest for the files it does not change and does not add it (C80_violated). Proved for all mutations otherwise: after any call that succeeded each new file is in use by the new version, the only exception being index manifests after mutations that delete (C80_partial); the same for the files put in place by mutations whose steps interleave with those of others (C80_staged_partial); for local and Ray deletes, upserts and refreshes without exception on layouts on which no file is lost (C80_delete_partial, C80_ray_partial, C80_upsert_partial, C80_refresh_partial); skipped mutations leave the files as they were (C80_skipped).
* **C81** Repeating a delete, an insert or an upsert changes nothing. *partial*: `C81_delete`, `C81_insert_partial`, `C81_upsert_partial`, `C81_violated_ray`, `C81_violated_nan`, `C81_violated_upsert`. `SameVersion` compares the head of a branch with the one the first run left, so the repetition may come from any handle at any later time. After a local delete no visited file has a row that the delete takes away (`Deleted.settled`, for carried and rewritten files), while a delete that takes effect changes a file (`Success.unsettled`). A repeated upsert removes exactly the files of the first one (`Success.upserted_again`), so it loses no file on any layout. False of deletes by Ray, which leave deleted rows (`C81_violated_ray`, finding of C23), and of keys with NaN (`C81_violated_nan`, `C81_violated_upsert`). — For all filters, layouts and later times: a repeated local delete and a repeated insert do not take effect and change nothing, a repeated upsert leaves the same rows. Missing, because false of the code: deletes by Ray as the first run (C81_violated_ray), keys with NaN (C81_violated_nan, C81_violated_upsert).
* **C82** Deleting what was added restores the table. *partial*: `C82_partial`, `C82_violated_null`, `C82_violated_not`. `Success.noDel` shows that a mutation that deletes nothing removes no manifest, so the new head has the manifests of the old one followed by its own. `Success.undone` then follows a delete on that head: files whose rows all fail the filter are not touched, files whose rows all pass it leave nothing behind, so no layout is excluded (the losses of C04 and C23 need a file in which both kinds of rows meet, or a sibling). False where the filter is null on a row there was (`C82_violated_null`) and for negated comparisons (`C82_violated_not`). — For filters that fit the schema and are false of the rows there were: exact, on every layout, for the local and the Ray delete. False where the filter is null on a row there was, and for negated comparisons, where the pruning skips files with rows to delete.
* **C83** The history of a branch is the sequence of its successful mutations. *partial*: `C83_partial`, `Demo.C83_violated`. `Track` is a run that notes the head of the branch after each successful mutation on it; the theorem says that this list is the path of parents (`Commits`, which is unique) from the later head to the earlier one. `Change.line` says how one step moves a branch, `Commits.keep` that the path survives later steps; branches other than the one in question may be removed. False where a stale handle writes references (`C83_violated`, as C17) or a commit is split between check and write (C13). — Proved for histories with atomic commits and references written by up-to-date handles, with any number of handles and removal of other branches; false otherwise, witness C83_violated.
* **C84** index_files names the files of a version, each once. *partial*: `C84_rows_partial`, `C84_loaded`, `C84_partial`, `C84_violated_stale`, `C84_violated_delete`, `C84_violated_load`. `indexFiles` models `Dataset.index_files`. `C84_rows_partial`, for any history: with an up-to-date handle a read equals the rows of the files named, errors included. `C84_partial`, that no file is named twice, is an invariant of all stored snapshots (`snaps_invariant`): a mutation keeps some entries of the head and adds entries for files that were not there, each once (`Renewed`, `AddsNew` in `Verif/Listed.lean`, through appends, deletes, upserts, Ray writers that share an index and Ray deletes). False for a handle that is not up to date (`C84_violated_stale`), after a Ray delete that rewrites two files of one manifest (`C84_violated_delete`) and for `append_parquet` of a file twice (`C84_violated_load`). — Proved for handles that are up to date, the second part without Ray deletes that rewrite two files of one manifest and without loads of files in use. False otherwise: a handle that is not up to date names old files (C84_violated_stale), such a Ray delete lists a file twice (C84_violated_delete), so does append_parquet of a file twice (C84_violated_load).
* **C85** Appends, inserts, upserts, deletes and refreshes fill their files up to the size limits. *proved*: `C85`, `C85_records`, `C85_ray`, `C85_rayFrom`, `C85_ray_records`, `C85_rayFrom_records`, `C85_delete`, `C85_rayDelete`, `C85_insert`, `C85_rayInsert`, `C85_upsert`, `C85_refresh`, `C85_insert_records`, `C85_rayInsert_records`, `C85_refresh_records`, `C85_delete_records`. `Packed` and `RecPacked` state the division without reference to how it is computed (`CutAt`: some element made the list too large and no beginning before it was; `Under`: no beginning is too large), for any size functions and limits. `appendBody_packed` and `appendBody_recs` show by induction over the tables that the state of an append operation (`Filling`, `RecFilling`: finished files, closed row groups, waiting tables, byte counters) is that of the division so far. `C85` and `C85_records` carry this to the version that a successful append leaves.  `C85_ray`, `C85_rayFrom` and their `_records` companions do the same for Ray appends: each actor fills its own files, whatever the schedule (`ActorsFill`, `ActorsRec`), and the pieces that each actor is given are stated by position. `C85_delete` does it for the files a delete writes back (`DelFill`, an invariant of the loop over the files visited), naming the files rewritten as C86 does; `C85_insert` shows that the rows of an insert or upsert make one file. `C85_rayDelete` shows that a Ray delete makes one file of each file it rewrites, on every layout (`rayDeleteLoop_packed`, by induction over the files). `C85_rayInsert` is for the rows given to Ray inserts and upserts (`rayAppendBody_packed`). `C85_upsert` is for what upserts, local and Ray, write back of the files they cut, and `C85_refresh` for both parts of a transaction of a refresh; `CutByKeys` states the first of them by keys, without the filter expression, which needs keys that are set (on null or NaN keys the filter is null or false, see C08). `C85_insert_records`, `C85_rayInsert_records`, `C85_refresh_records` and `C85_delete_records` (in `Verif/Props/InsertRecords.lean`) are for the record files of these operations: the delete part adds none, so the record files are those of the append (`addedRecs_merged`). — How a successful append divides its tables into row groups, files and record files, for all tables, limits and size functions; the same for each actor of a Ray append, insert, upsert or refresh, for all schedules, and for what a delete, Ray delete, upsert or refresh writes back; an insert or upsert of the local runner writes one file, and one record file per record field.
* **C86** A delete or upsert rewrites only the files that hold rows to delete. *partial*: `C86_partial`, `C86_exact_partial`, `C86_upsert_partial`, `C86_refresh_partial`, `C86_ray_partial`, `C86_violated`. `Rewrites` (in `Verif/Props/Touched.lean`) states the claim about two lists of files and their rows; `filesRows` reads files by name. `C86_partial` proves it of every delete by a filter that fits the schema, with a list of files lost, which is empty on the layouts on which C04 holds (`DeleteSafe`); `C86_exact_partial` is the claim in one line for filters that are null on no row; `C86_upsert_partial` is for upserts, local and Ray. `C86_refresh_partial` (in `Verif/Props/RefreshTouched.lean`) is for the transactions of refreshes. The work is in `DeleteOut.touched` (`Verif/Touched.lean`): the entries after a delete and those lost are together the entries of files not modified and those written. False where a delete removes all rows of some files and cuts none: then other files of the same manifests are lost (`C86_violated`, the cause of C04's loss). `C86_ray_partial` is for deletes of the Ray runner, on the layouts on which C23 holds (`RaySafe`; elsewhere files are lost or listed twice, see C84), with the rows kept in any order (`RayMerged.touched`). — Full statement false: a delete that removes all rows of some files and cuts none loses other files of the same manifests (C86_violated). Proved for filters that fit the schema and layouts without that loss, for local and Ray deletes, for upserts and for the transactions of refreshes; rows on which the filter is null may or may not cause a rewrite.
* **C87** The order of two deletes does not matter. *partial*: `C87_rows_partial`, `C87_order_partial`, `C87_or_partial`, `C87_violated_loss`, `C87_violated_null`. `Twofold` and `Onefold` (in `Verif/Props/TwoDeletes.lean`) state what it is for two deletes, and one, to take effect on a branch; `SafeDelete` says the layout is one on which C04 (for Ray: C23) holds. `C87_rows_partial` says that two deletes leave the rows on which neither filter is true, `C87_order_partial` that the order does not matter, `C87_or_partial` that one delete by `a or b` does the same. They follow from `C04_partial`, `C23_rows_partial` and `SameVersion.reads` (the second delete reads what the first left, however much was done on other branches in between). The claim is false of the code elsewhere: `C87_violated_loss` has two filters, null on no row, and eight rows, of which one order of the deletes leaves one and the other none; `C87_violated_null` has a row without key that stays in two deletes and goes in one by `a or b`, since the statistics of its file exclude it from the first. — For filters that fit the schema and are null on no row, on layouts on which deletes lose nothing: two deletes, local or by Ray, leave the rows on which neither filter is true, so their order does not matter and one delete by the disjunction does the same. False of the code on other layouts (C87_violated_loss) and where a filter is null on a row (C87_violated_null).
* **C88** Of two upserts the later one wins, and upserts of other keys do not interfere. *partial*: `C88_rows_partial`, `C88_order_partial`, `C88_one_partial`, `C88_violated_loss`, `C88_violated_nan`. `TwoUpserts` and `OneUpsert` (in `Verif/Props/TwoUpserts.lean`) are like `Twofold` and `Onefold` of C87; `SafeUpsert` is the exact condition on the layout under which one upsert loses no row (`C08_effect`). `C88_rows_partial` states the rows that two upserts leave, `C88_order_partial` and `C88_one_partial` what follows for rows without common keys. Proved from `Done.upsertEffect` for the local and the Ray upsert and from `SameVersion.reads`. False of the code elsewhere: `C88_violated_loss` (eight rows, two upserts without common keys; in one order all eight keys are there afterwards, in the other one is lost), `C88_violated_nan` (two upserts of the key NaN leave two rows). — For keys without null and NaN, on layouts on which an upsert loses no row: two upserts, local or by Ray, leave what the later-wins rule says, in either order if the keys are disjoint, and one upsert of all does the same. False of the code on other layouts (C88_violated_loss) and for NaN keys (C88_violated_nan).
* **C89** Appends in either order add the same rows, and an append and a delete commute unless the delete matches rows appended. *partial*: `C89_appends`, `C89_appends_order`, `C89_appendDelete_partial`, `C89_deleteAppend_partial`, `C89_order_partial`, `C89_violated`. `InTurn` (in `Verif/Props/AddDelete.lean`) is two mutations that took effect, the second by any handle on the version that the first left; `Appending` lists the three ways to append tables. `C89_appends` and `C89_appends_order` prove the claims about appends in full. `C89_appendDelete_partial`, `C89_deleteAppend_partial` and `C89_order_partial` (an equivalence) prove those about an append and a delete for filters that fit the schema and are null on no row, on layouts on which the delete loses no row (`SafeDelete`, as in C87). They follow from C01, C22, C04 and C23 and from `SameVersion.reads`: the second operation finds what the first left. False where the delete loses rows: of two files appended, one with all rows to delete, nothing is left (`C89_violated`, the cause of C04's loss). — The claims about appends are proved in full. Those about an append and a delete are false where a delete loses rows (C89_violated); proved for filters that fit the schema and are null on no row, on layouts without that loss, local and Ray.
* **C90** An upsert commutes with a delete unless the delete matches rows upserted, and with an append unless the append has keys of the upsert. *partial*: `C90_upsertDelete_partial`, `C90_deleteUpsert_partial`, `C90_order_partial`, `C90_needless_partial`, `C90_appendUpsert_partial`, `C90_upsertAppend_partial`, `C90_appendOrder_partial`, `C90_violated`. `InTurn` is that of C89, `Upserting` (in `Verif/Props/UpsertTurns.lean`) an upsert of the rows, local or by Ray, on a layout on which it loses no row (`SafeUpsert`, as in C88). `C90_upsertDelete_partial` and `C90_deleteUpsert_partial` say what is left, `C90_order_partial` (an equivalence) when the order does not matter, `C90_needless_partial` when the delete makes no difference; `C90_appendUpsert_partial`, `C90_upsertAppend_partial` and `C90_appendOrder_partial` (an equivalence) do the same for appends. They assume keys without null and NaN, filters that fit the schema and are null on no row, and layouts on which neither operation loses a row; they follow from C23, C04, C01 and `Done.between`. False elsewhere: of five rows in two files and one upserted after a delete of four only the last is left (`C90_violated`, the cause of C04's loss). — False where a delete or an upsert loses rows (C90_violated); proved for keys without null and NaN, filters that fit the schema and are null on no row, on layouts without that loss, local and Ray.
* **C91** Inserts add up in either order, and an upsert is a delete of its keys and an insert. *partial*: `C91_inserts_partial`, `C91_inserts_order_partial`, `C91_upsert_partial`, `C91_deleteInsert_partial`, `C91_replace_partial`, `C91_insertDelete_partial`, `C91_violated_loss`, `C91_violated_nan`. `InTurn` is that of C89, `Inserting` (in `Verif/Props/InsertTurns.lean`) an insert of the rows, local or by Ray. `C91_inserts_partial`, `C91_inserts_order_partial` and `C91_upsert_partial` prove the claims about inserts and upserts of new keys on every layout, for keys without null and NaN. `C91_deleteInsert_partial`, `C91_replace_partial` and `C91_insertDelete_partial` prove those with a delete for filters that fit the schema and are null on no row, on layouts on which the delete (and the upsert it is compared with) loses no row. That the insert took effect is what shows that no key was left (`Success.insertG`). False for NaN (`C91_violated_nan`: two inserts of the key NaN both succeed) and where the delete loses rows (`C91_violated_loss`). — False for NaN keys and where a delete loses rows; the claims about inserts alone are proved on every layout for keys without NaN, those with a delete also for filters that fit the schema and are null on no row, on layouts without that loss.
* **C92** A delete removes what a read with its filter shows. *partial*: `C92_gone_partial`, `C92_partial`, `C92_violated_loss`, `C92_violated_null`, `C92_violated_ray`. `ReadsBy` (in `Verif/Props/ShownDeleted.lean`) is what every handle on the branch reads with the filter. `C92_gone_partial` proves for every local delete, on every layout, also for filters that are null on rows, that a read with the filter afterwards is empty; `C92_partial` proves the whole claim, local and by Ray, for filters null on no row on layouts on which the delete loses no row. Both assume filters that fit the schema (those for which C05 holds) and follow from C04, C23 and C05. False where the delete loses rows (`C92_violated_loss`), for filters that are null on a row, which the delete removes and the read does not show (`C92_violated_null`), and for deletes by Ray of rows in several files of a manifest, after which rows to delete are still shown (`C92_violated_ray`). — False where a delete loses rows, for filters null on a row, and for some layouts with Ray (witnesses); that nothing is shown afterwards is proved for every local delete by a filter that fits the schema, the whole claim for filters null on no row on layouts without loss, local and Ray.
* **C93** What was inserted or upserted can be read back by its keys. *partial*: `C93_partial`, `C93_violated_nan`. `C93_partial` (in `Verif/Props/ReadWrites.lean`) proves it on every layout, local and by Ray, for keys without null and NaN and filters that fit the schema (those for which C05 holds): the rows that an upsert keeps were there and have other keys (`Done.upsertKept`, from the effect of upserts on every layout in C08 and C58), an insert finds none of its keys (C07), and C05 says what the filtered read shows. One of the examples is an upsert that loses a row. False for NaN: the old row stays and is shown (`C93_violated_nan`). — Proved on every layout, local and Ray, for keys without null and NaN and filters that fit the schema; false for NaN keys (C93_violated_nan).
* **C94** What was deleted or replaced can be put back. *partial*: `C94_append_partial`, `C94_insert_partial`, `C94_upsert_partial`, `C94_violated_loss`. `C94_append_partial` and `C94_insert_partial` (in `Verif/Props/PutBack.lean`) prove it for deletes, with the rows shown given by `ReadsBy` (as in C92) and the two operations by `InTurn` (as in C89), for filters that fit the schema and are null on no row, on layouts on which the delete loses no row; `C94_upsert_partial` proves the equivalence for upserts, for keys without null and NaN, on layouts on which they lose no row (`TwoUpserts`, as in C88). They follow from C89, C91 and C88. False where a delete loses rows (`C94_violated_loss`). — False where a delete or an upsert loses rows (C94_violated_loss); proved for keys without null and NaN, filters that fit the schema and are null on no row, on layouts without that loss, local and Ray.
* **C95** Reads with two filters, with both and with either fit together. *partial*: `C95_partial`, `C95_violated`. `C95_partial` (in `Verif/Props/TwoFilters.lean`) proves it for filters that fit the schema, at every version or tag and in every reachable state. The specification (`Combined`) compares what the reads show, by counting rows, and does not say what the filters mean; the proof is from C05, after showing that `and` and `or` of filters that fit are filters that fit (`FilterFits.both`, `FilterFits.either`). False with `not`: a file that is skipped for `not (id > 1)` is opened for `not (id > 1) or id = 2`, and then shows a row that neither part shows (`C95_violated`, from the finding on `not` in C05). — False with not, for which files are skipped wrongly (C95_violated); proved for all filters that fit the schema, every version, every reachable state.
* **C96** The diff over one commit says what was asked for. *partial*: `C96_add_partial`, `C96_load`, `C96_delete_sound`, `C96_delete_partial`, `C96_upsert_partial`, `C96_refresh_partial`, `C96_violated`. `C96_add_partial`, `C96_delete_partial` and `C96_upsert_partial` (in `Verif/Props/CommitDiff.lean`) prove it on every layout of files, also where rows are lost (the diff does not tell those, see C19), local and by Ray, with these restrictions: filters of deletes fit the schema and are null on no row; upserts are for keys without null and NaN; rows are given with the columns of a schema whose record columns are last. `C96_load` proves for loads of array records that the diff deletes nothing and adds what the table gained; over loads of Parquet files diffs raise (C21). `C96_refresh_partial` says the same of the transactions of a refresh as of upserts: the rows appended are added, and of the keys to delete those that were there are deleted. The rows that the change log lists are computed from what each operation leaves (`logged_matches`, from the lemmas of C04 and C19), and `Landing.diffs` turns the log into the diff. False for filters that are null on rows (`C96_violated`): such a row goes with a row to delete in its file, and is listed; `C96_delete_sound` proves for all filters that fit the schema that the diff lists the rows shown and otherwise only such rows. — False for deletes by filters that are null on rows (C96_violated); proved on every layout, local and Ray, for filters that fit the schema and are null on no row and keys without null and NaN; C96_delete_sound bounds what the diff lists for the other filters.
