{"id": "C01", "title": "Time series merge content", "statement": "merge_time_series(existing, inserted, axis, dim) returns exactly the existing records whose time lies strictly before the first or strictly after the last inserted time, together with all inserted records: existing before, then inserted, then existing after. It fails only on empty input.", "quantifier": "every pair of datasets whose time axis is sorted, of any length and relative position", "why_tests_cant": "thirteen relative positions times every spacing of the records; the unit tests place periods far apart or fully aligned and never put a record right next to the inserted period", "anchors": ["zcollection/merging/time_series.py:merge_time_series", "zcollection/merging/time_series.py:_merge_time_series"]}
{"id": "C02", "title": "Merged axis is sorted", "statement": "If the existing and the inserted time axis are both strictly increasing, the axis of the merged dataset is strictly increasing: a merge can neither shuffle records nor create duplicate timestamps.", "quantifier": "every pair of strictly increasing axes for which the merge returns", "why_tests_cant": "needs all interleavings of two unbounded sequences", "anchors": ["zcollection/merging/time_series.py:_merge_time_series"]}
{"id": "C03", "title": "Merging never loses inserted data nor invents any", "statement": "Every inserted record is in the merged dataset exactly as given, contiguous and in order, and each other record of the result is a record of the existing dataset, in the original order.", "quantifier": "every pair of datasets, sorted or not, for which the merge returns", "why_tests_cant": "universal over all records and positions", "anchors": ["zcollection/merging/time_series.py:_merge_time_series"]}
{"id": "C04", "title": "Re-inserting is idempotent", "statement": "Merging the same inserted dataset a second time into the result of the first merge gives the same dataset again and does not fail.", "quantifier": "every pair of sorted datasets for which the first merge returns", "why_tests_cant": "quantifies over all histories of the form insert, insert again", "anchors": ["zcollection/merging/time_series.py:merge_time_series"]}
{"id": "C05", "title": "Merging with a gap tolerance", "statement": "With a tolerance, the inserted data is cut at every time step larger than the tolerance, and existing records survive exactly when they lie outside the closed span of each piece; all inserted records are in the result; the result is sorted.", "quantifier": "every sorted existing dataset, every sorted inserted dataset with any number of gaps, every tolerance", "why_tests_cant": "arbitrary number of pieces, each changing the dataset the next one is merged into", "anchors": ["zcollection/merging/time_series.py:merge_time_series"]}
{"id": "C06", "title": "Period relation is total and faithful", "statement": "For any two non-empty periods the computed relation never trips the internal assertion, describes the true position of the two intervals, and is the converse of the relation computed with the arguments exchanged.", "quantifier": "every pair of non-empty closed periods", "why_tests_cant": "thirteen overlapping guards evaluated in a fixed order over an infinite domain, with degenerate one-instant periods", "anchors": ["zcollection/merging/period.py:Period.get_relation", "zcollection/merging/period.py:Period._get_direct_relation", "zcollection/merging/period.py:PeriodRelation"]}
{"id": "C07", "title": "Period intersection is set intersection", "statement": "For two non-empty periods with the same time unit: an instant belongs to p.intersection(q) exactly when it belongs to p and to q; the result is null exactly when p and q share no instant; intersects agrees with this.", "quantifier": "every pair of periods and every instant", "why_tests_cant": "infinite domain; tests use hand-picked dates", "anchors": ["zcollection/merging/period.py:Period.intersection", "zcollection/merging/period.py:Period.intersects", "zcollection/merging/period.py:Period.is_null"]}
{"id": "C08", "title": "Period union, span, adjacency", "statement": "For two non-empty periods with the same time unit: p.merge(q) returns a null period exactly when p and q share no instant; otherwise its instants are exactly those of p or q. p.span(q) is the smallest period holding both. is_before, is_after, is_adjacent, contains agree with the interval order. length() is the number of instants counted in the unit of the period. shift(d) moves the instants by d and keeps the length; expand(d) adds d on both sides. from_duration(begin, d) holds the instants from begin, without begin + d. Two non-empty periods are == exactly when they have the same instants.", "quantifier": "every pair of periods", "why_tests_cant": "infinite domain with boundary cases", "anchors": ["zcollection/merging/period.py:Period.merge", "zcollection/merging/period.py:Period.span", "zcollection/merging/period.py:Period.is_adjacent", "zcollection/merging/period.py:Period.contains", "zcollection/merging/period.py:Period.is_before", "zcollection/merging/period.py:Period.is_after", "zcollection/merging/period.py:Period.shift", "zcollection/merging/period.py:Period.expand", "zcollection/merging/period.py:Period.length", "zcollection/merging/period.py:Period.from_duration"]}
{"id": "C09", "title": "Splitting covers every record once", "statement": "The slices of split_dataset are non-empty, contiguous, in order and cover the dataset: each record goes to exactly one partition, and concatenating the pieces gives back the dataset.", "quantifier": "every key column of any length, loaded eagerly or lazily, on which the split returns", "why_tests_cant": "unbounded arrays and all run-length patterns", "anchors": ["zcollection/partitioning/abc.py:Partitioning.split_dataset", "zcollection/partitioning/sequence.py:Sequence._split", "zcollection/partitioning/abc.py:unique"]}
{"id": "C10", "title": "Each record goes to the partition of its own key", "statement": "Every record of a slice produced by split_dataset has exactly the key announced for that slice.", "quantifier": "every key column, sorted or not, eager or lazy, on which the split returns", "why_tests_cant": "a misfiled record needs a specific unsorted pattern that a random shuffle of a large array does not produce", "anchors": ["zcollection/partitioning/abc.py:unique_and_check_monotony", "zcollection/partitioning/sequence.py:_unique", "zcollection/partitioning/date.py:_unique", "zcollection/partitioning/abc.py:Partitioning.split_dataset", "zcollection/partitioning/abc.py:Partitioning.index_dataset"]}
{"id": "C11", "title": "No partition key is produced twice", "statement": "The keys of the slices are strictly increasing, hence two slices of one dataset never target the same partition; if the key column is not sorted the split raises ValueError instead.", "quantifier": "every key column", "why_tests_cant": "universal over arrays; the failing case is rare", "anchors": ["zcollection/partitioning/sequence.py:_is_monotonic", "zcollection/partitioning/sequence.py:_unique", "zcollection/partitioning/abc.py:unique_and_check_monotony"]}
{"id": "C12", "title": "Eager and lazy splitting agree", "statement": "Loading with numpy or with dask makes no difference: both variants of the split give the same slices and keys, or both raise.", "quantifier": "every key column with at least one record", "why_tests_cant": "two independent algorithms compared over all inputs", "anchors": ["zcollection/partitioning/abc.py:unique", "zcollection/partitioning/abc.py:unique_and_check_monotony", "zcollection/partitioning/sequence.py:_is_monotonic"]}
{"id": "C13", "title": "Date partition holds exactly its calendar interval", "statement": "With Date partitioning, a record with time t is filed in partition d exactly when t lies in the half-open calendar interval of d at the chosen resolution (leap years and times before 1970 included); the partition keys printed are the calendar fields of t.", "quantifier": "every timestamp (int64 tick before or after the epoch), every resolution", "why_tests_cant": "needs the calendar for all years", "anchors": ["zcollection/partitioning/date.py:Date._split", "zcollection/partitioning/date.py:Date._partition", "zcollection/partitioning/date.py:Date.decode", "zcollection/partitioning/date.py:Date.encode"]}
{"id": "C14", "title": "Partition path round trip (Sequence)", "statement": "Parsing the path of a partition gives back the key values it was built from; two different keys never share a path.", "quantifier": "every list of variable names without an equal sign, every tuple of integers (negative included), every base directory", "why_tests_cant": "infinite key space and a greedy backtracking regular expression", "anchors": ["zcollection/partitioning/abc.py:Partitioning.parse", "zcollection/partitioning/abc.py:Partitioning.join", "zcollection/partitioning/abc.py:Partitioning._regex", "zcollection/partitioning/sequence.py:Sequence.encode", "zcollection/partitioning/sequence.py:Sequence.decode"]}
{"id": "C15", "title": "Partition path round trip (Date)", "statement": "For Date partitioning, parse(join(keys)) gives back the calendar fields, encode gives the start of the partition, and decode(encode(keys)) is the identity.", "quantifier": "every resolution and every valid date with a four digit year, below every base directory whose path does not contain the text `year=`", "why_tests_cant": "calendar, zero padding and string parsing over millions of dates", "anchors": ["zcollection/partitioning/date.py:Date.join", "zcollection/partitioning/date.py:Date.encode", "zcollection/partitioning/date.py:Date.decode", "zcollection/partitioning/date.py:Date._stringify", "zcollection/partitioning/abc.py:Partitioning.parse"]}
{"id": "C16", "title": "Listing partitions is exact and numerically ordered", "statement": "partitions() yields each stored partition once, in increasing numeric order of the keys whatever the order in which the file system lists entries, and nothing else; hidden directories are never listed.", "quantifier": "every set of stored partitions and every listing order of the file system; handlers with one data type per key, below every base directory whose path does not contain the text `firstkey=`", "why_tests_cant": "all directory contents, including lexicographic traps such as 10 before 2", "anchors": ["zcollection/partitioning/abc.py:list_partitions", "zcollection/partitioning/abc.py:Partitioning.list_partitions", "zcollection/collection/abc.py:ReadOnlyCollection.partitions"]}
{"id": "C17", "title": "Partitioning configuration round trip", "statement": "A partitioning handler rebuilt from its stored configuration produces the same partition keys, data types and paths as the original.", "quantifier": "every Sequence or Date handler", "why_tests_cant": "every combination of variables and data types", "anchors": ["zcollection/partitioning/abc.py:Partitioning.get_config", "zcollection/partitioning/abc.py:Partitioning.from_config", "zcollection/partitioning/registry.py:get_codecs"]}
{"id": "C18", "title": "Metadata round trip", "statement": "Storing the dataset metadata in the collection configuration and reading it back gives equal metadata; equality ignores the order of variables and attributes and nothing else.", "quantifier": "every metadata record", "why_tests_cant": "all orders and contents of variables, attributes and dimensions", "anchors": ["zcollection/meta.py:Dataset.get_config", "zcollection/meta.py:Dataset.from_config", "zcollection/meta.py:Variable.get_config", "zcollection/meta.py:Variable.from_config", "zcollection/meta.py:Dataset.__eq__"]}
{"id": "C19", "title": "Work is distributed exactly once", "statement": "split_sequence returns consecutive non-empty blocks whose concatenation is the input, with sizes that differ by at most one, and at most the requested number of blocks. With npartitions=n an insertion handles at most n partitions in a batch and every partition in exactly one batch.", "quantifier": "every non-empty sequence and every requested number of blocks or batch size", "why_tests_cant": "arithmetic over all lengths and divisors", "anchors": ["zcollection/dask_utils.py:split_sequence", "zcollection/collection/__init__.py:Collection.insert"]}
{"id": "C20", "title": "Filters select exactly the matching partitions", "statement": "partitions(filters=f) yields exactly the partitions whose keys satisfy f, in the order of the unfiltered listing. An expression string gives the same selection as the equivalent callable; an unknown name raises NameError.", "quantifier": "every expression, every callable, every set of partitions", "why_tests_cant": "all expressions and all key values", "anchors": ["zcollection/expression.py:Expression", "zcollection/collection/abc.py:ReadOnlyCollection.partitions", "zcollection/collection/abc.py:ReadOnlyCollection._is_selected"]}
{"id": "C21", "title": "Stored arrays read back identically", "statement": "A variable written to a partition and read back has the same values and the same missing values, for each chunk size, also when chunks holding only fill values are not written.", "quantifier": "every array, chunk shape and fill value", "why_tests_cant": "all arrays, all chunk boundaries, partial last chunk, all-fill chunks", "anchors": ["zcollection/storage.py:write_zarr_variable", "zcollection/storage.py:_to_zarr", "zcollection/storage.py:open_zarr_group", "zcollection/variable/delayed_array.py:_blockdims_from_blockshape", "zcollection/variable/array.py:_as_numpy_array"]}
{"id": "C22", "title": "Insert then load", "statement": "After insert(ds) into a collection, load() returns the inserted records in the partitions they belong to, concatenated in partition order; partitions not touched by the insertion are unchanged.", "quantifier": "every dataset and every prior content of the collection; any number of successive insertions", "why_tests_cant": "all histories of insertions", "anchors": ["zcollection/collection/__init__.py:Collection.insert", "zcollection/collection/detail.py:_insert", "zcollection/collection/abc.py:ReadOnlyCollection.load"]}
{"id": "C23", "title": "Insertion order of disjoint partitions does not matter", "statement": "Inserting partitions in any order, in any batches, with any assignment to workers gives the same stored collection.", "quantifier": "every permutation and every batching of the partitions of a dataset", "why_tests_cant": "all schedules of the workers", "anchors": ["zcollection/collection/__init__.py:Collection.insert", "zcollection/collection/detail.py:_insert", "zcollection/dask_utils.py:split_sequence"]}
{"id": "C24", "title": "A failing write of a new partition leaves no trace", "statement": "If writing a new partition raises, the exception reaches the caller, and the partition directory is gone, so the collection is exactly as before.", "quantifier": "every failing write step and every content of the partition", "why_tests_cant": "every fault position in the write sequence", "anchors": ["zcollection/collection/detail.py:_insert", "zcollection/collection/detail.py:_rm", "zcollection/storage.py:write_zarr_group"]}
{"id": "C25", "title": "A failing merge keeps the old partition", "statement": "If the merge callback or the write of the merged data raises, the old partition keeps its content and no temporary directory remains.", "quantifier": "every failing step before the replacement starts", "why_tests_cant": "every fault position", "anchors": ["zcollection/merging/__init__.py:perform", "zcollection/merging/__init__.py:_update_fs", "zcollection/merging/__init__.py:_rename"]}
{"id": "C26", "title": "Crash safety of the partition replacement", "statement": "Whatever the step at which the process is killed during an insertion that merges into an existing partition, reopening the collection shows for this partition either the old or the new complete content, and the listing of partitions works.", "quantifier": "every crash point of every merge, every order of deletion and renaming", "why_tests_cant": "crash points between system calls cannot be enumerated by unit tests", "anchors": ["zcollection/merging/__init__.py:_update_fs", "zcollection/merging/__init__.py:_rename", "zcollection/merging/__init__.py:_extract_root_dirname", "zcollection/collection/detail.py:_insert"]}
{"id": "C27", "title": "Creation of a partition has a single commit point", "statement": "A partition whose creation was killed at any step is never taken for an existing one: the next insertion writes it again in full.", "quantifier": "every crash point of the creation, every number of variables", "why_tests_cant": "every crash point", "anchors": ["zcollection/storage.py:write_zarr_group", "zcollection/storage.py:_write_meta", "zcollection/collection/detail.py:_insert"]}
{"id": "C28", "title": "Read-only mode modifies nothing", "statement": "No method of a collection opened with mode='r' changes the stored files.", "quantifier": "every sequence of calls on a read-only collection", "why_tests_cant": "all call histories", "anchors": ["zcollection/collection/__init__.py:Collection._read_only_mode", "zcollection/collection/__init__.py:Collection.validate_partitions"]}
{"id": "C29", "title": "drop_partitions removes exactly the selection", "statement": "drop_partitions(filters, timedelta) deletes exactly the partitions that satisfy the filter and are older than the delay, returns them, and changes nothing else.", "quantifier": "every collection, filter and delay", "why_tests_cant": "all contents", "anchors": ["zcollection/collection/__init__.py:Collection.drop_partitions"]}
{"id": "C30", "title": "Schema and partitions stay in step", "statement": "After each successful add_variable or drop_variable each partition stores exactly the variables of the metadata, values of the other variables are unchanged, and a new variable reads as its fill value everywhere. If an addition fails the previous schema is restored. A collection that was dropped a variable can always be opened again.", "quantifier": "every sequence of schema changes and insertions", "why_tests_cant": "all histories of schema changes", "anchors": ["zcollection/collection/__init__.py:Collection.add_variable", "zcollection/collection/__init__.py:Collection.drop_variable", "zcollection/storage.py:add_zarr_array", "zcollection/storage.py:del_zarr_array", "zcollection/collection/abc.py:ReadOnlyCollection.__init__"]}
{"id": "C31", "title": "update touches only what it was asked to", "statement": "update(func, filters=f) changes only the partitions selected by f and only the variables returned by func; each new value is func applied to the content the partition had before.", "quantifier": "every callback, filter and collection", "why_tests_cant": "all callbacks and contents", "anchors": ["zcollection/collection/__init__.py:Collection.update", "zcollection/collection/detail.py:_wrap_update_func", "zcollection/storage.py:update_zarr_array"]}
{"id": "C32", "title": "update does not depend on the schedule", "statement": "The result of update is the same for every order in which workers process the partitions and equals func applied to a snapshot taken before the update, also with depth > 0.", "quantifier": "every interleaving of the partition reads and writes of the workers", "why_tests_cant": "all schedules", "anchors": ["zcollection/collection/__init__.py:Collection.update", "zcollection/collection/detail.py:_wrap_update_func_with_overlap", "zcollection/collection/detail.py:_load_dataset_with_overlap", "zcollection/collection/detail.py:_update_with_overlap"]}
{"id": "C33", "title": "Overlap window", "statement": "With depth d, the callback of a partition receives the concatenation of this partition with its up to d selected neighbours on each side, and the slice passed to it (or used to trim the result) designates exactly the records of the partition. depth 0 is the partition alone.", "quantifier": "every list of partitions of any sizes, every position, every depth", "why_tests_cant": "all positions near both ends and all depths", "anchors": ["zcollection/collection/detail.py:_load_dataset_with_overlap", "zcollection/collection/detail.py:_get_slices", "zcollection/view/detail.py:_select_overlap"]}
{"id": "C34", "title": "Trimmed identity update is a no-op", "statement": "update with trim=True, any depth, and a callback that returns its input unchanged leaves the collection unchanged.", "quantifier": "every collection and depth", "why_tests_cant": "all window geometries", "anchors": ["zcollection/collection/detail.py:_update_with_overlap", "zcollection/collection/detail.py:_wrap_update_func_with_overlap"]}
{"id": "C35", "title": "map visits every selected partition once", "statement": "map returns exactly one (partition, result) per selected partition, keyed with the right partition.", "quantifier": "every callback, filter and collection", "why_tests_cant": "all contents", "anchors": ["zcollection/collection/abc.py:ReadOnlyCollection.map", "zcollection/collection/abc.py:ReadOnlyCollection.map_overlap"]}
{"id": "C36", "title": "View synchronisation converges", "statement": "After sync() every partition of the view has the axis of the reference, is_synced() is True, and another sync() changes nothing.", "quantifier": "every reference history, every state of the view", "why_tests_cant": "all histories of the reference", "anchors": ["zcollection/view/__init__.py:View.sync", "zcollection/view/__init__.py:View.is_synced", "zcollection/view/detail.py:_sync", "zcollection/view/detail.py:_sync_partition", "zcollection/view/detail.py:_extend_partition"]}
{"id": "C37", "title": "View synchronisation keeps user data", "statement": "If the reference only appended records to a partition, sync() keeps all the values of the view variables for the old records and new records read as fill values; otherwise the partition is reset to fill values with the new length, never left with a wrong alignment.", "quantifier": "every pair of old and new reference axes and every content of the view", "why_tests_cant": "all axes and values", "anchors": ["zcollection/view/detail.py:_sync", "zcollection/view/detail.py:_extend_partition", "zcollection/view/detail.py:_create_zarr_array"]}
{"id": "C38", "title": "Sync scope", "statement": "sync() without filter synchronises only the partitions already in the view; with filters also the selected missing ones, complete with all variables of the view; is_synced and a dry run change nothing.", "quantifier": "every view, reference and filter", "why_tests_cant": "all sets of partitions", "anchors": ["zcollection/view/__init__.py:View.sync", "zcollection/view/__init__.py:View._init_partitions", "zcollection/view/detail.py:_sync"]}
{"id": "C39", "title": "A view never changes its reference", "statement": "No operation on a view (add_variable, drop_variable, update, sync) modifies the reference collection, and a view cannot overwrite a variable of the reference.", "quantifier": "every sequence of view operations", "why_tests_cant": "all call histories", "anchors": ["zcollection/view/__init__.py:View.add_variable", "zcollection/view/__init__.py:View.update", "zcollection/view/__init__.py:View.drop_variable", "zcollection/view/detail.py:_assert_variable_handled"]}
{"id": "C40", "title": "View load returns the selected partitions", "statement": "load(filters, indexer, selected_variables) on a view returns the records of the partitions that satisfy the filters, restricted to the indexer, with the reference and view variables of each record aligned.", "quantifier": "every filter, indexer and selection of variables", "why_tests_cant": "all combinations of the three selections", "anchors": ["zcollection/view/__init__.py:View.load", "zcollection/view/detail.py:_load_one_dataset", "zcollection/view/detail.py:_load_datasets_list", "zcollection/collection/abc.py:build_indexer_args"]}
{"id": "C41", "title": "Index update replaces exactly the updated partitions", "statement": "After updating an index for a set of partitions, the index has exactly the recomputed rows for those partitions and unchanged rows for the others.", "quantifier": "every index table, every set of updated partitions and every recomputed result", "why_tests_cant": "all tables", "anchors": ["zcollection/indexing/abc.py:Indexer._update"]}
{"id": "C42", "title": "Index query returns the matching records", "statement": "The slices returned by query select exactly the records covered by the matching index rows of each partition.", "quantifier": "every set of matching rows, overlapping, nested or adjacent", "why_tests_cant": "all interval sets", "anchors": ["zcollection/indexing/abc.py:Indexer._table_2_indexer", "zcollection/indexing/abc.py:Indexer.query"]}
{"id": "C43", "title": "Dataset slicing and concatenation", "statement": "Concatenating along a dimension the consecutive slices of a dataset gives the dataset back; concat appends every variable of each operand; slicing keeps all variables aligned.", "quantifier": "every dataset, dimension and list of cut points", "why_tests_cant": "all shapes and cuts", "anchors": ["zcollection/dataset.py:Dataset.isel", "zcollection/dataset.py:Dataset.concat", "zcollection/variable/abc.py:concat"]}
{"id": "C44", "title": "Dataset dimensions are consistent", "statement": "In every dataset built by the constructor, add_variable, merge, isel, delete, concat, select_vars, rename or drops_vars, all variables agree on the size of each dimension; operations that would break this raise.", "quantifier": "every sequence of dataset operations", "why_tests_cant": "all histories", "anchors": ["zcollection/dataset.py:Dataset.__init__", "zcollection/dataset.py:_update_dimensions", "zcollection/dataset.py:Dataset.add_variable", "zcollection/dataset.py:Dataset.merge", "zcollection/dataset.py:Dataset.delete"]}
{"id": "C45", "title": "Failed dataset operations change nothing", "statement": "A Dataset.merge, rename or add_variable that raises leaves the dataset as it was.", "quantifier": "every pair of datasets", "why_tests_cant": "all failing inputs", "anchors": ["zcollection/dataset.py:Dataset.merge", "zcollection/dataset.py:Dataset.rename", "zcollection/dataset.py:Dataset.add_variable"]}
{"id": "C46", "title": "Copy is faithful", "statement": "copy(target) creates a collection that lists and loads like the source restricted to the filter, immutable data included.", "quantifier": "every collection and filter", "why_tests_cant": "all directory trees", "anchors": ["zcollection/collection/__init__.py:Collection.copy", "zcollection/fs_utils.py:copy_tree", "zcollection/fs_utils.py:fs_walk"]}
{"id": "C47", "title": "Inserting does not alter caller data", "statement": "insert, update and load leave the arguments given by the caller unchanged.", "quantifier": "every call", "why_tests_cant": "aliasing across all calls", "anchors": ["zcollection/collection/__init__.py:Collection.insert", "zcollection/collection/__init__.py:Collection.update", "zcollection/partitioning/registry.py:get_codecs"]}
{"id": "C48", "title": "Metadata comparison guards insertion", "statement": "insert(validate=True) accepts a dataset exactly when, after completing it with the missing variables of the schema, its variables and properties have the metadata of the collection, whatever the order of the variables; variables unknown to the collection are always refused. A refusal happens before any write.", "quantifier": "every dataset and schema", "why_tests_cant": "all schemas", "anchors": ["zcollection/collection/__init__.py:Collection.insert", "zcollection/meta.py:Dataset.missing_variables", "zcollection/meta.py:Dataset.__eq__", "zcollection/dataset.py:Dataset.metadata"]}
{"id": "C49", "title": "Validation finds exactly the broken partitions", "statement": "validate_partitions returns exactly the partitions that cannot be read with consistent dimensions, and with fix=True removes those and only those.", "quantifier": "every collection state, in particular every state left by a crash", "why_tests_cant": "all broken states", "anchors": ["zcollection/collection/__init__.py:Collection.validate_partitions", "zcollection/collection/__init__.py:_check_partition", "zcollection/storage.py:check_zarr_group"]}
{"id": "C50", "title": "Mutual exclusion", "statement": "While a process holds the lock of a collection, no other process executes a write transaction on it, and the lock is released on every exit path.", "quantifier": "every number of processes and every interleaving", "why_tests_cant": "all interleavings", "anchors": ["zcollection/sync.py:ProcessSync", "zcollection/storage.py:execute_transaction"]}
{"id": "C51", "title": "Indexer driven load", "statement": "Loading with an indexer reads, for every partition present in the index answer and selected, exactly the records designated by its slices, and skips partitions absent from the collection.", "quantifier": "every index answer, filter and collection", "why_tests_cant": "all answers", "anchors": ["zcollection/collection/abc.py:build_indexer_args", "zcollection/collection/abc.py:list_partitions_from_indexer", "zcollection/collection/detail.py:_load_and_apply_indexer"]}
{"id": "C52", "title": "In-memory compressed arrays behave like arrays", "statement": "Reading, concatenating or rechunking a compressed array gives the same values and the same missing values as the array it was built from.", "quantifier": "every array, chunking and fill value", "why_tests_cant": "all arrays", "anchors": ["zcollection/compressed_array.py:CompressedArray", "zcollection/compressed_array.py:concatenation"]}
{"id": "C53", "title": "Directory walk and tree copy", "statement": "fs_walk visits every directory and file of a tree exactly once, parents before children, in sorted order if required, and copy_tree to a new target outside the source reproduces the tree and modifies nothing else.", "quantifier": "every finite directory tree and every listing order", "why_tests_cant": "all trees", "anchors": ["zcollection/fs_utils.py:fs_walk", "zcollection/fs_utils.py:copy_tree"]}
{"id": "C54", "title": "Load returns the selected partitions in order", "statement": "Collection.load without indexer returns the records of exactly the partitions that satisfy the filters, in the order of the listing, for exactly the selected variables, with the immutable variables; it answers None when no partition is selected.", "quantifier": "every collection, filter and selection of variables", "why_tests_cant": "all collections and selections", "anchors": ["zcollection/collection/abc.py:ReadOnlyCollection.load"]}
{"id": "C55", "title": "Exact effect of the operations on a Dataset", "statement": "Dataset.delete(indexer, axis) keeps, in every variable, exactly the records the indexer does not designate (integers may count from the end, slices may have any start, stop and step), in order and with their values, or raises if a variable lacks the axis or the indexer is out of bounds. select_vars gives exactly the named variables; select_variables_by_dims exactly those with one of the dimensions (or exactly the others); drops_vars and rename change only the named variables; add_variable stores the given data or the fill value and changes nothing else.", "quantifier": "every consistent dataset of any number of variables and rank, every indexer, every list of names", "why_tests_cant": "infinitely many shapes, slices and index lists; tests check a few slices", "anchors": ["zcollection/dataset.py:Dataset.delete", "zcollection/dataset.py:Dataset.select_vars", "zcollection/dataset.py:Dataset.select_variables_by_dims", "zcollection/dataset.py:Dataset.drops_vars", "zcollection/dataset.py:Dataset.rename", "zcollection/dataset.py:Dataset.add_variable"]}
{"id": "C56", "title": "The variables of a view, its partitions and its configuration stay in step", "statement": "View.add_variable gives each partition of the view an array for the new variable filled with its fill value, declares it in the configuration and changes nothing else; if it fails the view is as before. View.drop_variable removes exactly that variable from the partitions and from the configuration. After any history of successful operations, reopening the view (from_config) shows exactly the declared variables, and every partition holds exactly an array for each of them.", "quantifier": "every view, every variable, every history of operations", "why_tests_cant": "all histories and all shapes of partitions; tests add one variable to one view", "anchors": ["zcollection/view/__init__.py:View.add_variable", "zcollection/view/__init__.py:View.drop_variable", "zcollection/view/__init__.py:View.from_config", "zcollection/view/detail.py:_create_zarr_array"]}
{"id": "C57", "title": "Effect of View.update", "statement": "View.update changes only the values of the variables returned by the callback, in the selected partitions of the view; the reference, the other variables, the shapes and the configuration stay as they are, whatever the outcome. If it succeeds, each variable returned for a partition holds the value that the callback computed from the content before the update, shown with the neighbouring partitions and trimmed to the partition when there is an overlap. It succeeds when the callback returns arrays of the right shapes for variables of the view.", "quantifier": "every view, selection, callback, overlap depth, number of workers, delayed or not", "why_tests_cant": "all callbacks, all partitions sizes and depths; the order of reads and writes of lazy arrays", "anchors": ["zcollection/view/__init__.py:View.update", "zcollection/view/detail.py:_wrap_update_func", "zcollection/view/detail.py:_wrap_update_func_overlap", "zcollection/view/detail.py:_select_overlap"]}
{"id": "C58", "title": "View.map and View.map_overlap", "statement": "View.map calls the function once per selected partition, in order, with exactly the chosen variables of the view and of the reference, and returns each result with the key of the partition. View.map_overlap does the same with the neighbouring partitions at the given depth and the place of the partition among the records. They raise only what the function or the partitioning raises.", "quantifier": "every view, selection, function and depth", "why_tests_cant": "all numbers and sizes of partitions, all depths", "anchors": ["zcollection/view/__init__.py:View.map", "zcollection/view/__init__.py:View.map_overlap", "zcollection/view/detail.py:_load_datasets_list", "zcollection/view/detail.py:_select_overlap"]}
{"id": "C59", "title": "Missing values stay missing, and only they", "statement": "The values that a user sees in a variable (Variable.values, v[key], the values of a loaded dataset) are missing exactly where they were missing in the data given: in the masked array given to the constructor, to duplicate or to the setter of values, in the operand of isel, delete and concat, and in the partitions of the collection for load. fill makes all of them missing. A failed assignment changes nothing.", "quantifier": "every array of any rank, mask, fill value and type, every selection, every list of operands and of partitions", "why_tests_cant": "missing values are kept as ordinary numbers equal to the fill value of a variable, so what is missing depends on pairs of fill values and types met along the way; tests use one fill value", "anchors": ["zcollection/variable/abc.py:50-134", "zcollection/variable/abc.py:369-411", "zcollection/variable/array.py:24-219", "zcollection/variable/delayed_array.py:95-343", "zcollection/collection/abc.py:561-658"]}
{"id": "C60", "title": "Opening gives back what was created", "statement": "create_collection(axis, ds, handler, path) followed by open_collection(path, mode) gives a collection with the same axis, metadata and partitioning, at this path, with the mode asked for (read-only by default), and opening never writes. create_view followed by open_view gives a view with the same directory, reference, metadata, filters and partitions. Creating where something exists raises ValueError and changes nothing; a creation that fails leaves nothing behind, so it can be tried again. A collection or a view whose directory is renamed or copied is opened at its new place.", "quantifier": "All file systems (what exists before), all metadata, all partitioning handlers, all axes, all modes, all filters (picklable or not), all sets of partitions of the reference, readable or not; renamed and copied directories.", "why_tests_cant": "The tests open a handful of collections right after their creation, at the same place, with metadata and filters that can be stored. That no metadata, handler or filter is altered by the trip through the configuration file, what a failed creation leaves behind, and where a renamed or copied view is opened, are statements on all states of the file system.", "anchors": ["zcollection/convenience/collection.py:18-88", "zcollection/convenience/view.py:16-77", "zcollection/collection/__init__.py:171-298", "zcollection/collection/abc.py:166-228", "zcollection/view/__init__.py:73-213", "zcollection/view/detail.py:671-705"]}
{"id": "C61", "title": "Workers of one insertion do not interfere", "statement": "insert hands the partitions of a batch to the workers of a cluster, which read, merge and write files at the same time. Whatever the interleaving of their steps on the file system, the final files are the same; a reader then finds in each partition exactly what a sequential insertion gives (inserted records, merged with the old ones by the callback), and the call returns or raises the same thing. At every moment the partitions outside of the batch, and those whose merge raises, are unchanged.", "quantifier": "All numbers of tasks, all interleavings of the steps of the workers, all file systems before the insertion, all merge callbacks (also raising ones), all numbers of batches.", "why_tests_cant": "The tests run a local cluster that executes one interleaving per run, on a few partitions. The number of interleavings is exponential and none is reproducible.", "anchors": ["zcollection/collection/__init__.py:388-414", "zcollection/collection/detail.py:388-442", "zcollection/merging/__init__.py:65-175", "zcollection/storage.py:47-82"]}
{"id": "C62", "title": "Crash safety of a parallel insertion", "statement": "If the cluster is killed at any moment of an insertion, whatever the workers were doing, each existing partition of the batch has, independently of the others, its old or its new content, and each new partition is complete or not visible.", "quantifier": "All numbers of tasks, all interleavings of the steps of the workers, all moments at which the cluster is killed, all file systems before the insertion.", "why_tests_cant": "The tests never stop the cluster in the middle of an insertion; the states in which several partitions are each at a different step are too many.", "anchors": ["zcollection/collection/__init__.py:388-414", "zcollection/collection/detail.py:388-442", "zcollection/merging/__init__.py:65-175"]}
{"id": "C63", "title": "Evaluating a delayed dataset keeps its data", "statement": "persist (compressed or not), rechunk, and persist of a single variable, in any number and order, do not raise and keep the description, the values and the missing values of every variable of a delayed dataset; to_dict and compute then return exactly these values, and dask.persist and dask.compute of a variable return a variable that shows them.", "quantifier": "All delayed datasets, all shapes and cuts into blocks, all sequences of calls, all sizes of the chunks chosen by zarr, all values and fill values, including those of another type than the elements and those that are not equal to themselves.", "why_tests_cant": "The tests call each method once on one dataset whose fill values have the type of the elements; the combinations of calls, of block layouts and of fill values are unbounded.", "anchors": ["zcollection/dataset.py:468-493", "zcollection/dataset.py:579-661", "zcollection/variable/delayed_array.py:175-265", "zcollection/variable/delayed_array.py:345-364", "zcollection/variable/delayed_array.py:379-444", "zcollection/compressed_array.py:44-62"]}
{"id": "C64", "title": "Selecting variables by name", "statement": "The methods that take names of variables (Collection.variables, View.variables, Dataset.to_dict, load of partitions with immutable variables, load of views, select_variables of the metadata) return exactly the variables whose names are among the elements of the argument, in the order of the metadata, and all variables without argument.", "quantifier": "All collections and datasets, all iterables of strings: lists, empty lists, iterators in any order, strings; names that exist or not.", "why_tests_cant": "The tests pass lists of one or two existing names; whether an iterator works depends on its order relative to that of the metadata and on how often the code consumes it.", "anchors": ["zcollection/dataset.py:468-493", "zcollection/dataset.py:807-829", "zcollection/meta.py:276-297", "zcollection/storage.py:328-336", "zcollection/collection/detail.py:145-173", "zcollection/view/__init__.py:379-388"]}
{"id": "C65", "title": "Attributes of variables and datasets", "statement": "A load returns each variable, and the dataset, with the attributes that the metadata give: those of the creation of the collection or of the addition of the variable, whatever was inserted, merged, added, dropped or reopened since; setting them never makes a load fail. The callbacks of map and update see the same attributes, and the attributes of an inserted dataset are those that are loaded.", "quantifier": "All collections, with and without immutable variables; all histories of insertions with any merge callable that invents no attribute, additions and removals of variables, removals of partitions and reopenings; all selections, filters and indexers; all sets of attributes.", "why_tests_cant": "The tests compare the attributes after one insertion of the dataset that created the collection; that no history leaves other attributes in a partition, and that the metadata always know the variables of the partitions, is an invariant over all histories.", "anchors": ["zcollection/dataset.py:495-531", "zcollection/dataset.py:663-762", "zcollection/storage.py:115-132", "zcollection/storage.py:305-342", "zcollection/collection/abc.py:561-658", "zcollection/collection/__init__.py:301-411", "zcollection/collection/__init__.py:587-689", "zcollection/collection/detail.py:145-174", "zcollection/view/__init__.py:398-407"]}
{"id": "C66", "title": "Records found with an index", "statement": "After index.update(collection), collection.load(indexer=index.query(columns, logical_op=op)) returns exactly the records whose indexed values satisfy the conditions, in the partitions that satisfy the filters: each one once, by partition in the order of the keys, and in order within a partition; it returns None when there is none.", "quantifier": "All collections of partitions with at least one record, all indexing functions whose rows describe the records of their partition, all conditions and the operators and, or, and_not, xor, all filters, all states of the index before the update.", "why_tests_cant": "The tests query one index for a few values; that the rows kept from the previous updates, their sort, their merge into slices and the order of the partitions in a load always give the records of the conditions holds only for all tables and collections.", "anchors": ["zcollection/indexing/abc.py:251-332", "zcollection/indexing/abc.py:357-464", "zcollection/collection/abc.py:69-128", "zcollection/collection/abc.py:369-444", "zcollection/collection/abc.py:561-658"]}
{"id": "C67", "title": "Life of an index file", "statement": "Several index objects may be created and opened on one file. No update is lost whichever object makes it: the rows of a partition are those of the last update that returned rows for it. An index opened after an update has the keys, the columns and the metadata of the object that made it, and gives the same answer to every query; the other objects answer alike. Before the first update that writes a row, open raises OSError and table raises ValueError.", "quantifier": "All sequences of create, open, update, query and table calls on any number of objects, all columns of the class and keys of the partitioning, all results of the indexing function (also raising), all metadata, all queries.", "why_tests_cant": "The test creates one object, updates it and opens the file once; that the keys found back from the names of the columns, the table kept in memory and the metadata agree for every class, partitioning and sequence of calls is a statement over all of them.", "anchors": ["zcollection/indexing/abc.py:86-106", "zcollection/indexing/abc.py:153-249", "zcollection/indexing/abc.py:251-332", "zcollection/indexing/abc.py:350-355", "zcollection/indexing/abc.py:404-478"]}
{"id": "C68", "title": "A collection partitioned by date holds one time line", "statement": "Let a collection be partitioned by the dates of its axis (Date, any resolution), and datasets be inserted with merge_time_series, with any tolerances, batches and outcomes. A load returns records with strictly increasing dates, the same for all variables, across the partitions. It returns exactly the records that were inserted and that no later insertion replaced in their partition: between its first and last date without tolerance, covered by its dates with a tolerance.", "quantifier": "All numbers and contents of insertions, all strictly increasing dates, all resolutions, tolerances, failures of single tasks, sets of variables, filters of the load.", "why_tests_cant": "Tests insert one or two datasets with evenly spaced dates into one partitioning; that the split, the merge of each partition, the order of the listing and the concatenation agree for every sequence of insertions is a statement about their composition.", "anchors": ["zcollection/merging/time_series.py:16-89", "zcollection/merging/time_series.py:92-153", "zcollection/partitioning/date.py:110-147", "zcollection/partitioning/date.py:198-218", "zcollection/collection/__init__.py:301-418", "zcollection/collection/abc.py:561-677", "zcollection/collection/detail.py:388-443"]}
{"id": "C69", "title": "Stored data stay until a call addresses them", "statement": "The variable of a partition, with its values, is the same after any sequence of calls of a collection that do not address it: insertions without record of its key, updates of other partitions or variables, additions and removals of other variables, removals of other partitions, validations that do not remove it, reads, and opening the collection again. This holds when calls raise or the storage fails, and when several objects, also stale ones, are used. Therefore the records of an insertion (with sorted keys) that returned are what a later load of their partition gives. Variables that are not split are written once and never changed.", "quantifier": "For all worlds (listing, storage faults, callbacks), all objects, all files and all finite histories of calls.", "why_tests_cant": "A test runs a few sequences of calls; the claim is about every sequence, with every failure, and about every variable of every partition that is not addressed.", "anchors": ["zcollection/collection/__init__.py:301-414", "zcollection/collection/__init__.py:417-475", "zcollection/collection/__init__.py:478-585", "zcollection/collection/__init__.py:587-689", "zcollection/collection/__init__.py:760-797", "zcollection/collection/detail.py:388-442"]}
{"id": "C70", "title": "Expressions on the variables of a dataset", "statement": "Calling a dataset `Expression` on a dataset gives an array on the dimensions of the variables that the expression uses outside of reductions; its value at each point of these dimensions is the expression evaluated on the values of the variables at this point, missing where a needed value equals the fill value of its variable. A name that is neither a variable of the dataset nor one of the constants and functions offered raises NameError. (As read by a user the first part fails: a variable named as a constant or function is not reachable, and dimensions are matched by position from the last one, not by name. It holds when no variable has a reserved name and the dimensions of the operands are nested.)", "quantifier": "all datasets of any number of variables of any rank, all expressions built from numbers, names, binary operators, the offered functions and attributes, all implementations of the operators and functions", "why_tests_cant": "The tests evaluate two expressions on vectors or matrices of the same dimensions and one with an unknown name; expressions, ranks and sizes are unbounded, and the wrong results with dimensions of equal size raise no error.", "anchors": ["zcollection/dataset.py:833-910", "zcollection/variable/array.py:85-99", "zcollection/variable/delayed_array.py:174-195"]}
{"id": "C71", "title": "The directories of a collection are those of its partitions", "statement": "After any history of calls on a collection - insertions, updates, removals, validations, successful or failed, by any objects, with the collection opened again at any time - the directories below the root that the listing finds are exactly the directories of the stored partitions: the listing raises nothing, gives each stored partition once, in the order of its keys, and nothing else. A failed insertion leaves no directory of a partition that it did not store, a removal that failed keeps the partition listed, and the empty parent directories that a removal leaves behind do not show up. After an insertion that returned, the listing has gained exactly the partitions returned by the call; after drop_partitions it has lost exactly the selected partitions that could be removed.", "quantifier": "all partitionings (Sequence with any names of keys without '=' whose first does not begin with '.', Date at all resolutions), all paths of the collection without the text `key=` of the first key, all histories of calls with any arguments, datasets, callbacks and failures", "why_tests_cant": "A test runs a few histories; the claim is about every interleaving of calls and failures, and about all partitionings and keys (negative numbers, leap days), where a directory left behind or a name that does not parse breaks every later call.", "anchors": ["zcollection/collection/detail.py:415-442", "zcollection/collection/__init__.py:301-475", "zcollection/collection/__init__.py:760-797", "zcollection/partitioning/abc.py:154-203", "zcollection/partitioning/abc.py:283-285", "zcollection/partitioning/abc.py:414-428", "zcollection/partitioning/date.py:77-119"]}
{"id": "C72", "title": "Compressed arrays stand for their arrays in a program", "statement": "After any sequence of constructions (from an array, a zarr array or a compressed array), rechunkings and assignments, indexing a compressed array with integers and forward slices gives the shape and the elements of the array it stands for: the elements given at construction, replaced by what was assigned since, through this object or another one that shares its data, and by nothing else; elements equal to its fill value are missing. An assignment to one array does not change another one that does not share its data; refused operations change nothing. What is assigned is read again, with its missing values. A numpy ufunc or function of compressed arrays has the result that it has for the arrays they stand for.", "quantifier": "all sequences of operations, arrays of any rank, chunks, keys, values and fill values; all functions of numpy, all arguments", "why_tests_cant": "The claim is over all histories with sharing, all keys across the borders of chunks, and all combinations of arguments of numpy functions, where a call that returns to the same method never ends.", "anchors": ["zcollection/compressed_array.py:44-62", "zcollection/compressed_array.py:77-105", "zcollection/compressed_array.py:169-183", "zcollection/compressed_array.py:185-200", "zcollection/compressed_array.py:202-268"]}
{"id": "C73", "title": "Conversion of datasets to xarray and back", "statement": "Dataset.to_xarray keeps every variable of the dataset in order, with its name, dimensions, shape, codecs and attributes; elements equal to the fill value (or to the attribute missing_value) are NaN, all others are unchanged, and the fill value is in the encoding; the coordinates are the variables that have the name of their only dimension and those that attributes `coordinates` name. It fails only for a variable of several dimensions named as one of them and for an attribute `coordinates` that is not a string. Dataset.from_xarray keeps names, dimensions, data, attributes, codecs and the fill value of the encoding. Converting to xarray and back gives the values of the dataset, missing elements included; converting an xarray dataset to a dataset and back gives the same xarray dataset, coordinates included.", "quantifier": "every dataset with distinct names whose variables agree on the sizes of dimensions, every rank and shape, every fill value and attributes, every xarray dataset that such a dataset gives", "why_tests_cant": "Tests convert one small dataset without missing elements; the claim ranges over all ranks, fill values, attributes and sets of coordinates, and on the composition of both conversions.", "anchors": ["zcollection/dataset.py:413-466", "zcollection/variable/abc.py:481-503", "zcollection/collection/__init__.py:357-358", "zcollection/convenience/collection.py:57-58"]}
{"id": "C74", "title": "Splitting dask arrays by several variables", "statement": "A dataset of dask arrays with sorted keys is split by a Sequence into the same partitions as the same dataset of numpy arrays, whatever the number of partitioning variables and however dask groups the blocks that it reduces.", "quantifier": "every number of variables, every number of records, every number of blocks that dask reduces at once (split_every)", "why_tests_cant": "The tests split by two or three variables, which dask reduces in one step; the levels of the reduction appear with more variables than split_every (4 by default).", "anchors": ["zcollection/partitioning/abc.py:47-109", "zcollection/partitioning/sequence.py:42-124"]}
{"id": "C75", "title": "Paths of collections, views and copies", "statement": "Two spellings of a path open the same collection exactly when they lead to the same directory; partitions(relative=True) lists the partitions without the directory, which joined with it gives the paths back; wherever a view is stored, its partitions have the keys of the partitions of the reference that they are computed from, and load reads exactly those that the filter selects and the view has; copy files each partition under the same relative path.", "quantifier": "every spelling of an absolute path, every directory of the collection and of the view, every set of partitions, every filter", "why_tests_cant": "The tests use a few directories without dots, double separators, the root, or the text of a key.", "anchors": ["zcollection/fs_utils.py:20-66", "zcollection/collection/abc.py:298-365", "zcollection/view/__init__.py:106-127", "zcollection/view/__init__.py:198-213", "zcollection/view/__init__.py:375-376", "zcollection/view/detail.py:513-535", "zcollection/collection/__init__.py:723-737"]}
{"id": "C76", "title": "Datasets that share variables, memory or dictionaries", "statement": "What is done with a dataset does not change another one unless they share something: a program that uses only datasets and arrays with no variable, dictionary or memory in common with a dataset never changes what it shows; pickle, delete and compute of a delayed dataset return independent datasets; isel, concat, set_for_insertion and rechunk return datasets that are independent as long as no element is written in place, and an element written through the values of a slice changes exactly the element of the source that the slice designates; select_vars, select_variables_by_dims and merge share the variables themselves, so that whatever is done with one of them shows in the other.", "quantifier": "every program of calls on any number of datasets, variables and arrays, with every outcome of each call, whatever the objects shared before", "why_tests_cant": "The tests look at the returned dataset only, after one call on a new dataset, and never at the datasets it was made of.", "anchors": ["zcollection/dataset.py:224-258", "zcollection/dataset.py:283-292", "zcollection/dataset.py:382-396", "zcollection/dataset.py:494-510", "zcollection/dataset.py:533-633", "zcollection/dataset.py:663-762", "zcollection/variable/abc.py:50-104", "zcollection/variable/abc.py:394-452", "zcollection/variable/array.py:22-45", "zcollection/variable/array.py:102-163", "zcollection/variable/delayed_array.py:198-277"]}
{"id": "C77", "title": "A program on datasets behaves as if they were values", "statement": "Each method of Dataset gives what its documentation says of the contents of the datasets and arrays involved, whatever objects they share: the same contents make the same result, the same change of the dataset it is called on and the same exception. Only an assignment to values, fill(), fill_attrs(), an assignment to an entry of chunks and a write into an array can change another dataset; a program without them, or one that applies them only to objects held once, ends with the datasets, the arrays, the results and the exceptions of the same program run on values that are never shared.", "quantifier": "every program of calls on any number of datasets, variables and arrays that starts from nothing; every intermediate state of such a program", "why_tests_cant": "The tests call one or two methods on new datasets. That the order of calls and the sharing between datasets does not matter quantifies over all programs.", "anchors": ["zcollection/dataset.py:224-258", "zcollection/dataset.py:283-292", "zcollection/dataset.py:382-396", "zcollection/dataset.py:494-510", "zcollection/dataset.py:533-633", "zcollection/dataset.py:663-762", "zcollection/variable/abc.py:50-104", "zcollection/variable/abc.py:394-452", "zcollection/variable/array.py:22-45", "zcollection/variable/array.py:102-163", "zcollection/variable/delayed_array.py:198-277"]}
{"id": "C78", "title": "Reading while another process writes", "statement": "load takes no lock. A dataset loaded while another process inserts holds, for each partition, the content before or after the insertion, or the load raises: never a mixture of both, and never missing values that were not stored. The same holds when a delayed dataset is computed after it was loaded.", "quantifier": "All sets of partitions replaced and created at the same time, all interleavings of the workers, all moments at which the reader reads each of its files, all formats of the files.", "why_tests_cant": "The tests never read while they write. The moments of the reader against the steps of the writers are unbounded in number and cannot be forced by a test.", "anchors": ["zcollection/storage.py:305-343", "zcollection/storage.py:346-377", "zcollection/collection/abc.py:561-658", "zcollection/merging/__init__.py:65-133", "zcollection/collection/detail.py:388-442", "zcollection/collection/__init__.py:417-475"]}
{"id": "C79", "title": "The text of the configuration files", "statement": "The files .zcollection and .view are JSON texts. Any configuration whose values json accepts is written, and opening the file gives the same configuration: the same variables, dimensions, types, chunks, limits and attributes (tuples become lists, keys become strings). A file that is incomplete, or followed by other text, is refused and never read as another configuration. After any sequence of add_variable and drop_variable, failed or not, opening the collection gives the metadata of the process.", "quantifier": "All configurations with all values of attributes (nested lists, tuples and dictionaries, all strings and numbers), all sequences of calls with all their failures, all prefixes of the texts.", "why_tests_cant": "The tests write a few fixed configurations and read them back. The values of attributes are unbounded trees and the places where a file can be cut are as many as its characters; no test stops a process during a write or adds an attribute that json refuses.", "anchors": ["zcollection/collection/__init__.py:226-247", "zcollection/collection/__init__.py:253-299", "zcollection/collection/__init__.py:589-690", "zcollection/meta.py:40-106", "zcollection/meta.py:165-217", "zcollection/meta.py:307-373", "zcollection/view/__init__.py:139-155", "zcollection/view/__init__.py:157-197"]}
{"id": "C80", "title": "Variables that are not split can be inserted", "statement": "A collection may have variables without the dimension of the partitioning. A dataset with the variables of the collection, sorted keys and at least one record can be inserted: each partition gets its records of the variables that have the dimension, and the other variables are stored once, by the first insertion, and only they.", "quantifier": "All collections with such variables, whatever the name of the axis and of its dimension, all datasets that match, all arguments; for the refusals all datasets, callbacks and all histories of calls.", "why_tests_cant": "The tests use a single collection with such variables, and its axis has the name of its dimension. That no history of calls can fill a collection, and which variables end up in .immutable, quantifies over all the datasets and histories.", "anchors": ["zcollection/collection/__init__.py:50-74", "zcollection/collection/__init__.py:375-414", "zcollection/collection/__init__.py:612-618", "zcollection/collection/abc.py:129-147", "zcollection/dataset.py:727-762", "zcollection/partitioning/abc.py:289-334"]}
{"id": "C81", "title": "A view shows the variables of its reference", "statement": "What is loaded from a view contains, for the partitions of the view, every selected variable of the reference collection with the dimensions and values that are loaded from the reference itself. A variable with the dimensions of a variable of the reference can be added to the view.", "quantifier": "All references, with or without variables that are not split, all states of the view, all filters and selections of variables; for the variables that are never shown also all indexers and the datasets given to the callbacks of update and map.", "why_tests_cant": "No test has a view on a collection with variables that are not split. The equality of the two loads quantifies over all partitions, selections and contents, and that a variable is never shown over all arguments.", "anchors": ["zcollection/view/__init__.py:231-302", "zcollection/view/__init__.py:336-407", "zcollection/view/detail.py:81-119", "zcollection/view/detail.py:146-228", "zcollection/collection/abc.py:599-658"]}
{"id": "C82", "title": "Attributes given as values of numpy", "statement": "An attribute of a dataset or of a variable given as a scalar or as an array of numpy, or as a list, is either refused or found again with the same value when the collection is opened: an array as nested lists of its elements. The metadata of the opened collection are equal to those it was created with.", "quantifier": "All scalars and all arrays of any shape of the types of numpy (booleans, numbers, texts, dates and durations of every unit), lists and tuples nested to any depth, all attributes of datasets and variables.", "why_tests_cant": "Tests have a few attributes. The statement quantifies over the shapes and elements of arrays and over the nesting of lists; which values are refused or changed depends on the type of each element.", "anchors": ["zcollection/meta.py:25-67", "zcollection/meta.py:160-163", "zcollection/meta.py:299-305", "zcollection/collection/__init__.py:226-247"]}
{"id": "C83", "title": "The configuration of a view declares what its partitions hold, even after failures", "statement": "After any history of add_variable, drop_variable, sync, is_synced, update and reopenings of a view, failed or not, while the reference changes and gains partitions, each partition of the view holds an array, with the declared properties, for each variable that the file .view declares, so that the view opened by another process can be loaded.", "quantifier": "All views, all histories of any length with any outcome of each call, all variables, all changes of the reference that do not remove partitions.", "why_tests_cant": "Tests make one failing call and look at the exception. The effect shows when a later call writes the configuration, and the statement quantifies over all sequences of calls and failures.", "anchors": ["zcollection/view/__init__.py:231-302", "zcollection/view/__init__.py:305-334", "zcollection/view/__init__.py:139-157", "zcollection/view/__init__.py:755-806"]}
{"id": "C84", "title": "What a callback computes in an update is what load then returns", "statement": "After an update without overlap that reports success, load of any selection of partitions and variables returns, at the place of each updated partition, the values that the callback computed from the content of that partition before the update, for the variables it returned, and everywhere else exactly the values that were stored before. After several updates, each callback was given the values left by the updates before it, so that functions applied to the values of a variable add up partition by partition.", "quantifier": "All collections with partitions of one schema, all selections of partitions and variables in the update and in the load, immutable variables, all callbacks, any number of workers; any number of updates.", "why_tests_cant": "Tests update with one callback and read back the updated variable. That all the other values of all the partitions stay, and that each partition gets its own result at its own offset, is a statement over all callbacks and selections.", "anchors": ["zcollection/collection/__init__.py:478-585", "zcollection/collection/abc.py:561-660", "zcollection/collection/detail.py:253-295"]}
{"id": "C85", "title": "What a callback computes in an update of a view is what the view then loads", "statement": "After View.update reports success, View.load of any selection of partitions and variables returns, at the place of each updated partition, the values computed by the callback from what the view showed before the update, trimmed if there is an overlap, for the variables of the view it returned; the variables of the reference, the variables not returned for the partition and all the other partitions have the values they had before. After several updates, each callback was given what the view showed after the updates before it.", "quantifier": "All views whose partitions have the variables and the lengths of the reference, all callbacks, all selections of partitions and variables in the update and in the load, every depth and number of workers; any number of updates.", "why_tests_cant": "Tests update one variable of a small view and read it back. That every other value stays, in the view and in the reference, and that each result goes to its own place, is a statement over all callbacks and selections.", "anchors": ["zcollection/view/__init__.py:336-407", "zcollection/view/__init__.py:409-535", "zcollection/view/detail.py:350-439"]}
{"id": "C86", "title": "An update that fails or is interrupted leaves a collection, or a view, that can be loaded", "statement": "Whatever exception Collection.update or View.update raises, and wherever, a load of any selection of partitions and variables succeeds afterwards: each variable of each partition has its shape, and the values stored before if the partition was not selected, if the callback never returns this variable, or, for a view, if it is a variable of the reference. For a collection without overlap, if the callback returns arrays or at most one dask array, each variable of a selected partition has either the values stored before or exactly those that the callback computed from the partition as it was before the update; this holds also at any moment of an update by several workers. For a view whose update does not use delayed datasets, with or without overlap, or uses them without overlap and with a callback that returns arrays or at most one dask array, each variable has either the values shown before or exactly those stored from what the callback computed from the partition, and its neighbours, as the view showed them before the update.", "quantifier": "All collections whose partitions have the same variables, all views whose partitions have the variables and the lengths of the reference, all callbacks that return arrays, all results of the update, every depth and number of workers, every interleaving of the workers of a collection and every moment at which they stop (between two writes of arrays), all selections of the load.", "why_tests_cant": "Tests make a callback fail at one place. That no place of failure, and no interleaving of workers that are stopped, leaves a partition that cannot be loaded or values that mix two states is a statement over all of them.", "anchors": ["zcollection/collection/__init__.py:478-585", "zcollection/collection/detail.py:253-363", "zcollection/storage.py:345-377", "zcollection/collection/abc.py:561-660", "zcollection/view/__init__.py:409-535", "zcollection/view/detail.py:350-439"]}
