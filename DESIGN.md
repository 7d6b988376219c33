# Formal model of zcollection: design

The properties are listed in `properties.jsonl` (C01, C02, ...).  The Lean project is in
`lean/`.  Every definition of the model cites the file and lines of `/repo` it models and
says where it simplifies.  `MANIFEST.json` gives the status of each property and the names
of its theorems.  `seeded/LOG.jsonl` records the wrong programs the theorems were tested on.

## Layout

* `Verif/Model/*.lean`: the model of the code, function by function.
* `Verif/Spec/*.lean`: small specifications, written without the helpers of the model.
* `Verif/Lemmas/*.lean`: auxiliary lemmas.
* `Verif/Props/*.lean`: the property theorems (`C01_...`), with examples that meet their
  hypotheses.

## Conventions

* Exceptions are values: a Python function that may raise is a function into `Except PyErr`.
  A function that changes files returns the new state with the result, so that the effect of
  a call that raises is visible.
* Integers, lists and strings are unbounded.  Overflow of int64 is not modelled.
* A `datetime64` is an integer number of ticks of the resolution of the axis.
* Where the records of a partition are enough (merging, splitting, crash safety) a dataset is
  the list of its records; where the shape matters (datasets, loads, updates, views) it is a
  list of variables with arrays of any rank.
* Callbacks of the user are arbitrary functions that may raise; file systems, listings,
  schedules and the results of external functions that are not determined by their
  documentation are parameters.
* A property whose full statement is false has: the full statement (`Cnn_full`), a theorem
  `Cnn_counterexample` that refutes it with a concrete witness, and theorems with the suffix
  `_partial` that hold.

## Trusted base

* The kernel of Lean 4.33.0 and the axioms `propext`, `Classical.choice` and `Quot.sound`
  (the table at the end gives them for each theorem).  There are no other axioms, no `sorry`,
  no `native_decide` and no `bv_decide`.
* The reading of the Python code recorded in the comments of the model: nothing was run, and
  the correspondence of the model with the code is by inspection.
* The behaviour of the libraries, read in their documentation or source:
  * numpy: `unique`, `diff`, `where`, `searchsorted`, `take`, `delete`, `concatenate`, slices,
    `datetime64` conversions, masked arrays.
  * zarr: a chunk that holds only fill values is not written and reads as fill values; arrays
    are padded to whole chunks; `resize` keeps the values in the common part;
    `init_group` raises `ContainsGroupError` (a `ValueError`) when the group exists;
    `zarr.open` of an array that does not exist, in mode `a`, creates a group, which has no
    `shape` (AttributeError).  Compressors and lossless filters decode what they encode.
    Arrays with an empty dimension are not modelled.
  * dask: `rechunk` and `store` keep the values; `Client.map` and `persist` start the tasks at
    once, `delayed` does not; `from_sequence([], npartitions=0)` is a parameter (believed to
    raise).
  * fsspec: `mkdir` creates the parents; `created` gives a UTC time; `mv` of a local directory
    is atomic, `rm` is not.
  * pyarrow: `concat_tables`, `is_in`, `filter`; `sort_indices` is stable.
  * fasteners: an inter-process lock is exclusive between processes, and the lock file stays
    after the release.
  * Python: `re.search` backtracks greedily; `sorted` is stable; `json` gives back lists for
    tuples (Model/Json transcribes its encoder and its decoder on characters, a reading of CPython's
    source from memory); dictionaries keep the order of insertion.
  * SHA-256: theorems that need it assume that the axes compared do not collide (`NoCollision`).

## What is modelled and what is not

Line numbers are in the comments of the model.

| File of `/repo/zcollection` | Modelled | Not modelled |
|---|---|---|
| `merging/period.py` | all relations and operations of `Period` | `repr`, pickling |
| `merging/time_series.py` | `merge_time_series`, `_merge_time_series` with and without tolerance, on lists of records and on whole datasets | the `RuntimeError` that no relation reaches |
| `merging/__init__.py` | `_rename`, `_extract_root_dirname`, `_update_fs`, `perform`, with failures and crashes | remote file systems |
| `partitioning/abc.py` | `unique`, `unique_and_check_monotony`, `index_dataset`, `split_dataset`, `parse`, `join`, `list_partitions`, configuration | `_logical_or_reduce` beyond its value |
| `partitioning/sequence.py`, `date.py`, `registry.py` | all | `register_codec` |
| `expression.py` | names, evaluation, the grammar of integer and Boolean expressions with `in range` and tuples | floats, strings, attributes, comprehensions, other calls |
| `meta.py` | all | `repr` |
| `storage.py` | `execute_transaction`, `write_zattrs`, `write_zarr_variable`, `write_zarr_group`, `open_zarr_group`, `update_zarr_array`, `del_zarr_array`, `add_zarr_array`, `check_zarr_group` | compression itself |
| `fs_utils.py` | `fs_walk`, `copy_file`, `copy_files`, `copy_tree`, `join_path`, `normalize_path`, `get_fs` | protocols in paths |
| `sync.py` | `ProcessSync` | `NoSync` (does nothing) |
| `dask_utils.py` | `split_sequence` | the client (the number of workers is a parameter; the interleaving of the workers of an insertion is in Model/Workers) |
| `dataset.py` | `Expression` on arrays of any rank; construction, `add_variable`, `rename`, `drops_vars`, `select_vars`, `isel`, `delete`, `concat`, `merge`, `select_variables_by_dims`, `set_for_insertion`, `fill_attrs`, `persist`, `rechunk`, `compute`, `to_dict`, metadata | xarray, `repr`, dask protocol |
| `variable/*.py` | `persist`, `compute`, `data`, `rechunk` of delayed variables; shapes, dimensions, values and missing values, constructors, setter, `duplicate`, `fill`, indexing, `concat`, reading and writing | dask protocol, tokens |
| `compressed_array.py` | chunks, reading, concatenation, `rechunk` (Model/Chunks); construction and shared data, indexing, assignment, the protocols `__array_ufunc__` and `__array_function__` with nested calls (Model/Compressed) | compression itself, dtypes (`astype`), `reshape` |
| `collection/__init__.py`, `abc.py`, `detail.py` | construction, `insert`, `drop_partitions`, `update`, `map`, `map_overlap`, `load`, `partitions`, `add_variable`, `drop_variable`, `copy`, `validate_partitions`, read-only mode | the text of errors and warnings |
| `view/__init__.py`, `detail.py` | `partitions`, `add_variable`, `drop_variable`, `load`, `update`, `map`, `map_overlap`, `is_synced`, `sync` | a view whose directory is inside that of its reference; faults of the disk in the operations on views |
| `indexing/abc.py` | `_create`, `open`, `table` and the file shared by the objects; the table, `update` on the partitions of a collection, `query`, conversion to slices, use in `load` | parquet files, types of columns other than through a numbering |
| `convenience/collection.py`, `convenience/view.py` | `create_collection`, `open_collection`, `create_view`, `open_view` (Model/Open) | protocols and normalisation of paths |
| `representation.py`, `type_hints.py`, `mathematics.py` | | not modelled |
| directories of a collection: `collection/detail.py` `_insert`, `collection/__init__.py` `insert`, `drop_partitions`, `validate_partitions`, `partitioning/*.py` `_partition` | creation and removal of the directories of partitions in a tree, `Sequence` and `Date`, and the listing after each call (Model/Directory) | failures of the removal that follows a failed insertion, the temporary directory of a replaced partition (both in Model/Storage) |
| conversion from and to xarray: `dataset.py` `from_xarray`, `to_xarray`, `variable/abc.py` `to_xarray` | names, dimensions, data, attributes, fill values, codecs, coordinates (Model/Xarray) | dtypes; `Variable`, `Dataset` and `decode_cf_variables` of xarray are a reading of its documentation, and conventions other than fill values and coordinates an unknown function |
| `partitioning/abc.py` `_logical_or_reduce`, `unique` on dask arrays of several columns | the levels of the reduction of dask, and the mask (Model/Reduce) | blocks along the rows; `reduction` of dask is a reading of its source |
| texts of paths: `_relative_path`, `partitions(relative=True)`, `View.partitions`, `_init_partitions`, `_write_checksum`, the paths of `copy` | `posixpath.normpath`, `relpath` and `pathlib` `relative_to` transcribed (Model/Pathname) | `~`, Windows, symbolic links, protocols in paths |
| datasets and variables as objects: which variables, arrays and dictionaries the methods of `Dataset`, `Array` and `DelayedArray` share or create | references to variables, buffers and dictionaries (Model/Sharing); basic slices are views, `numpy.ma.masked_equal` and `numpy.delete` copy | the attributes of variables as lists that may be shared, graphs of dask, masked arrays of the user |
| reading while another process writes: `storage.py` `write_zarr_group`, `open_zarr_group`, `load` | each file of a partition read in its own state of the file system (Model/Reader) | several partitions in one statement, views |
| texts of the configurations: `_write_config`, `from_config` of collections and views, `get_config`, `from_config` of metadata | `json` on characters (Model/Json), the configurations and the calls that write them (Model/ConfigText) | codecs, types and fill values beyond their encoded form; faults of the disk; objects that contain themselves; lone surrogates |
## How each property is proved

| Property | Model | Proof |
|---|---|---|
| C01-C05 | `TimeSeries`: `merge_time_series` branch by branch over lists of records, on top of `Period` | case analysis on the relation, filters of sorted lists, induction over the pieces for the tolerance variant; `MergeDataset` does the same with datasets of any variables and is proved to follow the version on records |
| C06-C08 | `Period` with begin, last and unit in ticks | linear arithmetic over all positions |
| C09-C12 | `Split`, `Numpy`, `Pipeline` (whole datasets) | induction over the column of keys |
| C13, C15 | `Calendar`: civil calendar from day numbers, truncation, ISO printing and parsing | calendar arithmetic |
| C14 | `Path`: path strings, the backtracking `re.search`, `int()` and formatting | uniqueness of the alignment of equal signs |
| C16 | `Listing`: directory tree, `list_partitions`, sort by key | induction over the tree; sorting |
| C17, C18 | `Config`, `Meta`: JSON-like values, `get_config` and `from_config` | round trip |
| C19 | `Batches` | arithmetic and induction |
| C20 | `Expression`: syntax trees, binding of names, filter; meaning of expressions as a relation (`Spec/Expression`) | induction over the expression |
| C21 | `Chunks`: arrays cut in chunks, with omitted empty chunks | list chunking, by rank |
| C22, C23, C29 | `Collection` (store of partitions), `Pipeline` and `Schema` (whole datasets) | refinement of a map from keys to tables, induction over histories and schedules |
| C24-C27 | `Storage`: operations as lists of file steps, with a crash or a fault after any step | induction over the list of steps |
| C28, C30 | `Schema`: the collection object with its files; all public methods | invariants over call sequences |
| C31-C35 | `Update`: read and write steps of the workers, windows and slices | frames, commutation of steps, list arithmetic |
| C36-C40, C56-C58 | `View`: view and reference stores; the hash is a parameter | case analysis, idempotence, invariants over histories, frames |
| C41, C42 | `Index`: table and conversion to slices | induction over rows |
| C43-C45, C55 | `Dataset`, `Array`: named variables with arrays of any rank | invariants, index computations |
| C46, C53 | `Tree`: directory trees as maps from paths | structural induction |
| C47 | call arguments returned as part of the result | direct |
| C48, C49 | `Meta`, `Validate` | decision of every combination of differences |
| C50 | `Lock`: small steps of processes and tasks | invariant over interleavings |
| C51, C54 | `Load` | list lemmas, refinement |
| C52 | `Chunks`: compressed arrays as chunks with a fill value | round trip |
| C59 | `Variable`: constructors, `values` and its setter, `duplicate`, `fill`, indexing, over `Chunks` and `Load` | masking is a map over the values and commutes with indexing and concatenation |
| C60 | `Open`: directories with the files `.zcollection` and `.view`; creation and opening of collections and views, serialisation of filters, over `Config` and `Meta` | case analysis of the constructors; the trip through the file is that of C17 and C18, up to tuples |
| C61, C62 | `Workers`: one program of file-system steps per task over `Storage`, executed in any order of turns; codec between records and files | invariant over the schedule (each region is a prefix of the run alone), separation of regions, refinement of `Collection.insert` |
| C63 | `Evaluate`: a delayed variable is an array, the cut into blocks and the kind of the blocks (plain, masked, compressed, tuple) | invariant between the delayed variable and the array it stands for, preserved by every step; each compressed block is a round trip of C21 |
| C64 | `Selection`: iterables of strings with their consumption by `in` and `set` | induction over the variables; equivalence for iterators |
| C65 | `Attributes`: the files `.zattrs`, the metadata, and the calls that change them; `fill_attrs` in `Schema` and `View` | invariant over the histories (the partitions hold no attribute and only variables of the metadata) |
| C66 | `IndexLoad`: `Index` on the partitions of `Update`, its slices given to `Load` | composition of C41, C42 and C51; order of the partitions by induction over the keys |
| C67 | `IndexFile`: objects with their cached table, one file, a machine of calls | invariant over all sequences of calls; last writer by induction over the calls |
| C68 | `Schema`, `Pipeline`, `MergeDataset`, `Load`, `Calendar` together; no new definition | invariant over all sequences of insertions (each partition holds strictly increasing records of its own dates, each of them with its origin); concatenation in the order of the keys, which is that of the dates |
| C69 | `Schema`, `Pipeline`, `Update`, `Load` together; no new definition | frame of each call without any hypothesis on the files or the object (unsorted keys, failures); induction over the histories; composition with C22 and the load of one partition |
| C70 | `DataExpression`: syntax trees, the table of builtins, binding of names, broadcasting of shapes of any rank | the value at a point of the named dimensions is a relation (`Spec/DataExpression`); induction over the expression, broadcasting of nested dimensions |
| C71 | `Directory`: the directories created and removed by the calls of `Schema`, and the listing of `Listing` that they use | refinement: the tree mirrors the store (`Spec/Directory`), kept by every call with every outcome; the calls on the tree give the files and outcomes of `Schema` with one world whose listing is exact, so that `GoodWorld` and `OrderedListing`, assumed elsewhere, hold of the directories; induction over the histories |
| C72 | `Compressed`: objects that share zarr arrays, keys on any rank, assignment chunk by chunk, numpy's dispatch with a bound on nested calls | refinement of programs on plain arrays in memory (`Spec/Compressed`), induction over the operations; induction over the bound for the calls that never end |
| C73 | `Xarray`: the variables of both libraries with attributes and encoding, the decoding of fill values and coordinates | relation between a variable and its image (`Spec/Xarray`), composition of both conversions; refuted for missing elements and coordinates |
| C74 | `Reduce`: blocks with one or two dimensions, groups, levels | equality with the split of `Split` for one level, so that C09 to C12 apply; refuted for several levels |
| C75 | `Pathname`: paths as lists of characters, the loop of `normpath`, prefixes of components | walk in the tree of directories as specification (`LeadsTo`), normal form, `C20` for the listing; refuted for some directories |
| C76 | `Sharing`: a heap of buffers, variables, dictionaries and datasets; a call is a step on it | invariants of the heap (valid references, distinct positions, distinct names), frame theorems by induction over the programs, separation stated in `Spec/Sharing`; refuted for slices, selections, merges |
| C77 | `Sharing` against the functions of `Dataset`, `Array`, `Variable` on values | refinement: `Depicts` relates the heap to a list of datasets and arrays as values (`Spec/SharingValues`), each call preserves it when private; induction over the program; refuted without that condition |
| C78 | `Reader`: the files of a partition read one by one, each in its own state of the file system of `Workers` | independence of the workers (C61), phases of a replacement (unchanged, disappearing, new), monotone counts of turns; refuted by two interleavings |
| C79 | `Json`, `ConfigText`: the encoder and the decoder of `json` on characters, configurations as values, files as texts, the calls that write them | induction over values with a continuation (the decoder reads exactly the text of a value); a state machine that scans the text shows that no strict prefix closes; invariant over sequences of calls; refuted by an attribute that `json` refuses |
| C80 | `Schema`, `Pipeline`; no new definition | composition of C22 when the names agree; otherwise the variables that reach the split are characterised, and the absence of partitions is an invariant of the histories; refuted by an axis with another name than its dimension |
| C81 | `View`, `Load`; no new definition | both loads are compared one name at a time through `concat`; that a variable is never shown holds for every argument; refuted by a reference with a variable that is not split |
| C82 | `NumpyAttr` (`Pair._encode`, `item`, `tolist`, `==` of values), `ConfigText`, `Json` | induction over the shape of arrays and the nesting of lists, composed with the text of the file (C79); refuted by a date to the nanosecond |
| C83 | `View` (`addVariable`, `dropVariable`, `sync`, `isSynced`, `update`, `create`, `load`) | invariant over the histories `Lives`, with the names whose addition failed as ghost state; refuted by a failed addition followed by a successful one |
| C84 | `Update` then `Load` | composition of C31, C33 and C54: the update keeps the shapes of the partitions, and the load shows what is stored; refuted by the skipped update; histories of updates by induction, refining a chain of changes of the content |
| C85 | `View` (`update` then `load`) | composition of C57, strengthened with the frame inside a partition, and C40; the conditions on the view are kept by the writes; refuted by two dask arrays; histories by induction |
| C86 | `Update` (`update` with any result, `Machine`), `Load`, `View` | invariant of every write: the stored values are the old ones or those computed from the old store; then C54, or C40 for a view, for the store that is left |
## Findings

Places where the code does not do what the property says.  Each is proved (theorem in
brackets) from the model.

Merging and periods
* `merge_time_series` drops the old record one tick after the inserted data, or raises
  IndexError when there is none after it; so re-inserting data can delete a neighbour
  (C01_counterexample, C04, C05); the time line of a collection filled by insertions has a gap there
  (C68_counterexample).
* The intersection of periods of different units can contain instants outside of one of them (C07).

Splitting
* With data in memory, keys that are not sorted can be accepted (1, 2, 1 is), and records are
  then filed under the wrong key (C10, C11, C12, C22).  Delayed
  data are checked; an empty delayed column raises IndexError (C12).
* Inserting an empty dataset raises (C22_empty_raises), and so does `split_sequence` of an
  empty sequence (C19_empty_counterexample).

Paths, listing, filters, configuration
* A collection below a directory whose path contains `firstkey=` cannot list or parse its
  partitions (C14_refused, C15_refused, C16_refused).
* A `Sequence` with fewer dtypes than variables lists directories of the wrong depth (C16_short_dtype_counterexample).
* `Sequence` does not store its dtypes (C17_counterexample); `get_codecs` removes `id` from the
  dictionary of the caller (C47).
* Attributes that are tuples come back as lists (C18_counterexample).
* `item.replace(base_dir, '')` breaks filters when the path of the collection occurs again in
  the path of a partition (C20_counterexample); a key named `range` is hidden (C20_range_counterexample).

Insertion and files
* Datasets are refused when their variables use the dimensions in another order, and by default
  datasets of other types are accepted (C48).
* `_rm` gives up silently after ten attempts (C24).
* `init_group` is outside of the `try`: its failure leaves a temporary directory; a failure of
  the final move loses the partition (C25).
* A crash between the removal of the old partition and the move loses it, a retry then drops the
  old records, and the temporary directory makes every listing raise (C26).
* After a killed creation the next insertion raises; torn metadata, or a failed write followed by
  a crash, are taken for an existing partition (C27).
* `drop_partitions(timedelta=...)` compares local time with UTC (C29).
* `validate_partitions` raises KeyError when `.zmetadata` is missing and does not check the
  dimensions (C49); with `fix=True` it deletes partitions of a read-only collection (C28).
* `add_variable` fails on an empty collection, or when no variable has the dimensions, but the
  variable stays in the metadata; attributes that JSON cannot encode destroy the configuration;
  dropping the axis makes the collection impossible to open; a failing removal leaves
  partitions out of step (C30).
* `insert` adds the missing variables to the dataset of the caller; `update` with an overlap
  extends the list of the caller (C47).
* `copy` does not copy the immutable variables, and raises ZeroDivisionError when nothing is
  selected (C46); a tree copied inside itself has an additional directory (C53_copy_inside).

Update and map
* Dask arrays returned by a callback are computed when they are written, after other variables
  were replaced (C31_lazy_counterexample); a callback that returns nothing for the first
  partition makes all partitions skipped (C31_skip_counterexample); an empty selection with
  `variables` raises (C31_empty_selection).
* With an overlap, neighbours already updated are read (C32_counterexample).
* With immutable variables and an overlap, loading always raises: the partition is merged with
  itself (C33_immutable, C34_counterexample).

Views
* `is_synced` and `sync` raise on a reference without partition (C36_empty); `add_variable` on a
  view out of step gives arrays of the wrong length (C36_counterexample).
* A NaT in the axis resets an appended partition (C37_counterexample_nat); a change of another
  dimension is not noticed (C37_counterexample_shape).
* `sync(None)` creates missing partitions, and `sync(filters)` creates partitions with a checksum
  only, which cannot be loaded (C38).
* `View.load` ignores the filters when an indexer is given, ignores the slices when no variable of
  the reference is selected, and raises for view variables with a dimension that no selected
  variable of the reference has (C40).
* A variable added to a view without partition is not written to the configuration; a failed
  addition stays in memory, after which loads raise KeyError; a removal can raise although done (C56).
* `View.update` has the same overlap and laziness problems as the collection (C57), and an overlap
  with a single partition always raises (C57_single, C58_overlap_alone).

Index
* A partition for which the index function returns nothing keeps its stale rows (C41_stale); nested
  rows lose records and `logical_op='invert'` with one column does not negate (C42).  The rows of a
  partition dropped from the collection stay in the index, and the load of a query that selects one
  raises (C66).
* `Indexer.open` finds the keys of the partitioning as the columns of the file that the class does
  not declare: when the class declares a column that is also a key (a half-orbit index of a
  collection partitioned by cycle), the opened index has no key and every query returns nothing,
  without an error (C67).
* An index object keeps the table it has read: it does not see later updates by another object; the
  metadata given when an index is created on an existing file are dropped (C67).

Datasets and arrays
* `concat` swallows ValueError and drops the data of the other operands (C43).
* `add_variable` accepts data of lower rank, a failed `merge` leaves the dataset changed (C44, C45).
* `delete` raises when a variable does not have the axis, unlike `isel` (C55_delete_refused).
* NaN fill values are never recognised as missing (C21_nan_fill); a chunk of -0.0 reads as 0.0
  (C21_read_as).
* A fill value of another Python type than that of the masked array (a literal 0) is refused
  (C59_type_refused); the setter of `values` keeps the fill value, contrary to its documentation,
  so new numbers can become missing (C59_setter_counterexample).
* `concat`, and so `load`, use the fill value of the first operand for all of them: the missing
  values of the others become numbers (C59_concat_counterexample, C59_load_counterexample), and
  `insert` accepts such datasets by default (C59_insert_counterexample).
* `CompressedArray.rechunk` forgets the fill value and ufuncs use the fill value of the first
  operand for all of them (C52).

Creation and opening
* Metadata that `json` cannot encode make `create_collection` fail after it has created the
  directory: the configuration cannot be read, and a second creation is refused
  (C60_create_torn).  `create_view` with a partition whose axis cannot be read fails but leaves the
  view (C60_view_failed).
* A view stores its own path: opening a renamed view creates a new view without the data at the old
  place (C60_view_renamed), and opening a copy gives the original (C60_view_copied).  Collections
  can be moved (C60_renamed).
* A filter that cannot be pickled is stored as `None` (C60_view_counterexample).

Parallel workers
* The tasks of one batch are independent at the level of files (C61_independent); two insertions at
  the same time into the same partition without synchronizer both succeed and one loses its records
  (C61_same_partition_counterexample).
* The data of a batch are not atomic: a killed cluster leaves some partitions new, some old, and
  each one that was being renamed absent (C62_counterexample).
* `_write_config` opens `.zcollection` for writing before it encodes the configuration.  An attribute
  that `json` refuses (`numpy.datetime64`, which `Attribute._encode` turns into `datetime`; a set; an
  integer of numpy inside a list) makes `add_variable` raise `TypeError` with the file truncated and
  the variable kept in memory: the collection cannot be opened by anyone (C79_counterexample,
  C79_broken) until the same process drops the variable (C79_repaired).  A process that is killed
  during the write has the same effect (C79_crash_counterexample).  A truncated file is always refused
  and never taken for another configuration (C79_torn).
* Readers take no lock. A load that runs during an insertion, an update or `drop_partitions` can
  return, without error, old values of a variable with new values of another one
  (C78_counterexample) or fill values for chunks that were being removed (C78_fill_counterexample).
  A delayed dataset that is computed after an insertion reads the new chunks with the old metadata.
* The temporary directory of a partition is next to the components of its path that have no sign
  `=`. If the path of the collection itself has such a sign (`/data/run=3/col`), the temporary
  directories are made outside of the collection. The theorems of C25, C26, C61 and C62 hold for
  such a path too (temp_cross).

Delayed datasets
* `Dataset.compute` after `Dataset.persist` raises `ValueError` when the fill value was given as a
  Python number: the persisted array is masked, its fill value is a numpy scalar, and `not_equal`
  compares the types (C63_compute_raises). Without `persist` it succeeds (C63_compute_fresh).
* `DelayedArray.persist` stores the tuple that `dask.base.persist` returns: `shape` and `rechunk`
  raise `AttributeError`, `values` has a leading dimension of size 1
  (C63_persist_counterexample).

Selection by name
* `variables(selected_variables=[])` and `to_dict([])` return everything, because of
  `selected_variables or keys` (C64_empty_counterexample).
* With an iterator (allowed by the type `Iterable[str]`), `variables` returns the first variables
  only, and nothing if the first one is not named: `k in iterator` consumes it
  (C64_iterator, C64_iterator_iff). `View.load` uses the iterator twice and returns none of the
  variables of the view (C64_second_read_counterexample).
* `insert` without `validate=True` silently drops the attributes of the dataset: a load gives those
  of the collection, so that a change of units is lost (C65_counterexample). The callbacks of
  `map` and `update` get variables without attributes, unlike those that `load` returns
  (C65_callback_counterexample). An attribute named `_ARRAY_DIMENSIONS` is overwritten
  (C65_zattrs_counterexample).
* A collection object that was opened before another one added a variable raises KeyError in
  `load`, from `fill_attrs` (C65_stale).

Locks
* Tasks submitted with `Client.map` or `persist` start before the lock is taken, other tasks go on
  after the release when one raises, and `is_locked` stays true after a release (C50).
* `insert` completes a dataset that lacks a variable of the partitioning with fill values, and
  then overwrites the partition of the fill value (`C69_keyless_counterexample`).
* In a dataset `Expression` the names of the constants and functions win over those of the
  variables: a variable named `e`, `pi`, `min` or `var` cannot be read, and `e` silently gives the
  number (C70_counterexample, C70_hidden, C70_hidden_function).  Operands are matched by position:
  with `m` on (x, y) and `u` on x of the same size, `m + u` adds `u` along y
  (C70_dims_counterexample).  An attribute (`a.T`) raises NameError although `a` exists, since
  `co_names` lists attributes too (C70_attribute).
* `CompressedArray` (C72): the mask of an array that is assigned is lost, and the data under it
  appear (C72_assign_counterexample).  `CompressedArray(c, fill_value=f)` ignores `f` and shares
  the data of `c` (C72_shared).  A ufunc with a scalar of numpy that is not a number of Python
  (`numpy.int64`, `numpy.float32`, `numpy.datetime64`) raises TypeError (C72_scalar), as do the
  methods `accumulate`, `outer`, `at` and `reduceat` (C72_method).  `c += x` calls itself until
  Python raises RecursionError (C72_in_place), and so do `numpy.concatenate([c, c])` (C72_nested)
  and `numpy.mean(a=c)` (C72_keyword), because the output, the lists and the keywords are passed
  on as they are.
* C73: a dataset converted to xarray and back has NaN where elements were missing, and these are
  not missing any more, because `from_xarray` gives the variable the fill value of the encoding
  and not NaN (C73_counterexample).  This is also what `insert` does with a dataset of xarray.
  Coordinates that are not dimensions are lost by `from_xarray` (C73_counterexample_coordinates),
  as are the chunks.  With `mask_and_scale=False` the fill value is lost too, it stays behind as
  an attribute (C73_unmasked).
* C74: a dataset of dask arrays cannot be split by a Sequence of more than four variables
  (`split_every` of dask).  The function `aggregate` of `_logical_or_reduce` ignores `keepdims`,
  so that the second level of the reduction concatenates arrays of one dimension along the axis 1
  and raises AxisError (C74_refused).  The same dataset of numpy arrays is split.
* C46: `copy(target)` without `filesystem` calls `get_fs(target)`, which takes the target for the
  name of a protocol: it raises ValueError for every path (C46_no_filesystem).  The documentation
  says that the file system of the collection is used, and shows such a call.
* C75: a view whose directory contains the text `key=` of the first key of the partitioning
  (`/work/cycle=1/view`) is created, listed and synchronised, but `load` always raises, because
  the keys are parsed from the absolute path (C75_refused).
* C75: for a collection at the root of a file system (`memory://`), `item.replace('/', '')`
  joins the names of the directories; the filters then see `cycle=12pass=2` as cycle 1, pass 2,
  without an error (C75_root_counterexample).  A view at the root cannot be created
  (C75_root_view).
* C76: the datasets returned by `select_vars` and `select_variables_by_dims` hold the variables of
  their source, and `merge` puts those of the other dataset into the dataset: an assignment to
  `values`, `fill()` or `fill_attrs` on one changes the other (C76_select_counterexample,
  C76_merge_counterexample).  The `dimensions` of the other are not updated.
* C76: a slice is on the memory of its source, but `values` of a variable with a fill value is a
  copy: `ds.isel(...)["x"].values[0] = 5` changes the source (C76_counterexample), or nothing at all
  when `x` has a fill value.
* C76: `copy_properties` makes two datasets have one dictionary `chunks`
  (C76_chunks_counterexample).
* `insert` and `_write_immutable_dataset` use the name of the axis where the dimension is meant.  In a
  collection with a variable that is not split and an axis that is not named like its dimension
  (`time` along `num_lines`), every insertion raises and nothing can ever be stored
  (C80_counterexample, C80_refused, C80_never); the first attempt leaves a directory `.immutable`
  with all the variables, which can then not be removed (C80_leftover, C80_stuck).
* A view does not know the variables of the reference that are not split: they are not loaded, not
  given to callbacks (C81_counterexample, C81_hidden), and adding a variable with the same dimensions
  raises KeyError and leaves a view object that cannot be loaded (C81_add, C81_add_blocks).
* `Pair._encode` converts a value of numpy but not what a list holds: `[numpy.int64(1)]`, like dates to
  the microsecond or coarser, makes the write of the configuration raise and destroys the file
  (C82_nested, C82_refused); a date to the nanosecond silently becomes an integer (C82_counted); an
  attribute that is NaN makes the opened metadata differ from equal ones (C82_equal).
* A variable whose addition to a view failed stays in memory, and the next `add_variable`,
  `drop_variable` or `sync` with filters writes it in `.view` although no partition holds it: every
  process that opens the view then gets `KeyError` from `load` (C83_written, C83_unloadable).  Dropping
  the variable raises but repairs the file.

Seen while reading, outside of the properties: `_load_one_dataset` drops scalar reference
variables;
`_extend_partition` removes the whole partition of the view when it fails; partitions of a view
that the reference no longer lists are not touched by additions and removals of variables;
writes of the configuration are
not under the lock; `Dataset.to_zarr` imports `storage` and `sync` as modules of their own, so
that it always raises ModuleNotFoundError;
`DelayedArray.persist` stores a tuple; `except Exception` in `_update_fs` misses
KeyboardInterrupt.

## Status of each property

| Property | Status | What is proved, what is missing |
|---|---|---|
| C01 Time series merge content | partial | merge_time_series drops a record one tick after the inserted data, or raises IndexError (counterexamples proved); exact condition for the correct result proved as C01_partial; for whole datasets with any variables: C01_dataset_partial (equivalence) and C01_dataset_errors |
| C02 Merged axis is sorted | proved | C02_dataset_sorted states it for whole datasets |
| C03 Merging never loses inserted data nor invents any | proved | inserted records are all kept once; nothing invented; the unsorted case is shown to lose records (C03_unsorted_counterexample), outside the documented precondition; C03_dataset_content states it for all the variables of whole datasets |
| C04 Re-inserting is idempotent | partial | re-inserting the same data can delete an adjacent old record (counterexample proved); C04_dataset_partial for whole datasets |
| C05 Merging with a gap tolerance | partial | violated by the same boundary error as C01 (counterexample proved); C05_dataset_partial and C05_dataset_negative_tolerance for whole datasets; C05_outcome gives, for any tolerance, what a merge that returns keeps and drops |
| C06 Period relation is total and faithful | proved |  |
| C07 Period intersection is set intersection | proved | for periods of equal unit; mixed units and null periods have counterexamples |
| C08 Period union, span, adjacency | proved |  |
| C09 Splitting covers every record once | proved |  |
| C10 Each record goes to the partition of its own key | partial | eager data with unsorted keys can be filed under a wrong key (counterexample proved); proved for lazy data and for sorted keys. C10_dataset_partial states it for whole datasets; C10_dataset_refused: a missing or multi-dimensional key variable is refused. |
| C11 No partition key is produced twice | partial | unsorted keys are not always refused for eager data (counterexample proved) For dask arrays and a Sequence, up to the number of variables that dask reduces at once (C74). |
| C12 Eager and lazy splitting agree | partial | eager and lazy splits differ on unsorted keys (counterexample proved) and on an empty column For dask arrays and a Sequence, up to the number of variables that dask reduces at once (C74). |
| C13 Date partition holds exactly its calendar interval | proved | Calendar arithmetic of numpy datetime64 and of datetime.item modelled; the interval property holds for all instants, the field names for years 1-9999. |
| C14 Partition path round trip (Sequence) | partial | Violated when the path of the collection contains `firstkey=`: every partition is refused (C14_refused); proved for every other directory. |
| C15 Partition path round trip (Date) | proved | Below a directory containing `year=` every partition is refused (C15_refused). Years 1000-9999 (the code does not pad shorter years to four digits). |
| C16 Listing partitions is exact and numerically ordered | proved | Excluded cases shown to raise: C16_refused (path containing `firstkey=`), C16_short_dtype_counterexample (fewer data types than variables). |
| C17 Partitioning configuration round trip | partial | Violated: the data types of a Sequence are not stored (C17_counterexample). Exact for Date and for Sequence with default types. |
| C18 Metadata round trip | partial | Violated for attributes whose value is a tuple (C18_counterexample). Equality is exactly equality up to order. |
| C19 Work is distributed exactly once | proved | The empty sequence raises instead of giving no block (C19_empty_counterexample). |
| C20 Filters select exactly the matching partitions | partial | Violated when the path of the collection occurs inside the relative path of a partition (C20_counterexample); proved otherwise. The builtin `range` hides a variable of that name (C20_range_counterexample). |
| C21 Stored arrays read back identically | proved | All shapes, chunk sizes and fill values, eager and delayed reads, all-fill chunks omitted; masked inputs; update replaces values. C21_read_as covers values that zarr only holds equal to the fill value (-0.0). NaN fill values are never missing (C21_nan_fill). |
| C22 Insert then load | partial | Proved for columns of keys that are sorted or split in delayed mode: exact effect of one insertion (C22_insert_partial), of a failing one (C22_failed_insert_partial), insertion then load (C22_roundtrip_partial), any number of insertions (C22_history_partial). The eager split accepts keys that are not sorted and misplaces records (C22_counterexample); an empty dataset raises (C22_empty_raises). For whole datasets with any number of variables, dimensions and immutable variables: C22_dataset_partial (effect on every partition), C22_dataset_failed_partial, C22_dataset_roundtrip_partial (insertion then load gives back the dataset), C22_dataset_accepted (such an insertion succeeds). With merge_time_series as callback: C22_merge_partial and C22_merge_records_partial (content of every partition after the insertion). |
| C23 Insertion order of disjoint partitions does not matter | proved | For each two arrangements of the tasks in batches, success is the same and so is the store (C23_order_irrelevant, C23_success_irrelevant). |
| C24 A failing write of a new partition leaves no trace | partial | Proved when one of the ten removal attempts succeeds, for a failure at any step with any steps of other threads (C24_failing_creation_partial, C24_no_trace_partial). `_rm` gives up silently after ten attempts (C24_gives_up, C24_counterexample). |
| C25 A failing merge keeps the old partition | partial | Proved for a failure of the merge callback or of the writes (C25_failing_merge_partial). A failure of init_group leaves the temporary directory (C25_counterexample); a failure of the final move loses the partition (C25_move_loses_partition). |
| C26 Crash safety of the partition replacement | partial | Violated: between removal and renaming the partition is absent (C26_counterexample), a retry then drops the old records (C26_retry_loses_data), and the temporary directory makes every listing raise (C26_listing_fails). Proved: at each crash point the old or new content exists in full in the partition or in the temporary directory (C26_recoverable_partial), and a retry before the removal starts gives the merged data. |
| C27 Creation of a partition has a single commit point | partial | Proved with atomic file writes: without the last step the partition is not taken for an existing one. The next insertion raises ContainsGroupError (assumed behaviour of zarr init_group) and removes the rest; the one after it succeeds (C27_retry_partial, C27_counterexample). Torn metadata and a failed write of a variable break it (C27_torn_counterexample, C27_failed_write_counterexample). |
| C28 Read-only mode modifies nothing | partial | Proved for all sequences of calls on a read-only object: files unchanged unless validate_partitions(fix=True) is called, the five replaced methods raise io.UnsupportedOperation, and in general only unreadable partitions can disappear. The full statement is false: validate_partitions(fix=True) deletes in read-only mode (C28_counterexample). |
| C29 drop_partitions removes exactly the selection | partial | Proved when no delay is given, or creation times are local times or local time is UTC (C29_drop_partial). A naive local `now` is compared with a UTC creation time otherwise (C29_counterexample, C29_delay_shifted). |
| C30 Schema and partitions stay in step | partial | Proved: successful add_variable/drop_variable, failed additions with a partition and JSON-serialisable metadata, insert, update, drop_partitions, validate_partitions, reopening, and all histories of such calls keep partitions, configuration and metadata in step. The full statement is false: dropping the axis, non-serialisable metadata, collections without partition, failing removals (C30_counterexample*). C30_merge_time_series: the merge callback meets the hypothesis made on callbacks. |
| C31 update touches only what it was asked to | partial | Frame proved for every callback, outcome and interruption. Values proved for callbacks returning arrays, or at most one dask array, and at least one variable. Violated (proved) when several dask arrays are returned (they are evaluated when written, after the other variable was replaced) and when the callback returns nothing for the first partition (all partitions are skipped). C31_accepted: when an update without overlap succeeds; C31_nothing_selected and C31_refused: the updates that do nothing, or are refused before the first write. |
| C32 update does not depend on the schedule | partial | Proved for every schedule of the workers without overlap, or when the callback does not read the variables it updates. Violated (proved) with an overlap: neighbours already updated are read. |
| C33 Overlap window | partial | Window, content and slice proved for every list of partitions of any sizes, every depth, without immutable variables; depth 0 proved with them. With immutable variables and an overlap the load always raises (C33_immutable), because the partition is merged with itself. |
| C34 Trimmed identity update is a no-op | partial | The collection is never changed: proved for every depth, outcome, kind of array and schedule. Success of the update proved without immutable variables; with them the update raises (C34_counterexample). |
| C35 map visits every selected partition once | partial | map and map_overlap proved over any list of selected partitions, including the failures; composed with the listing and the filters for the directories of C20. Missing: the collections whose path breaks the filters or the parsing (C14, C20). |
| C36 View synchronisation converges | partial | Proved: after sync() of a reachable view with a non-empty reference every reference partition has a view partition with the axis, lengths and checksum of the reference, extra partitions of the view are untouched, and is_synced() then answers yes, under NoCollision (no SHA-256 collision between compared axes) (C36_sync_partial, C36_total, C36_history). The full statement is false: add_variable on a view out of step gives arrays of the wrong length (C36_counterexample), and is_synced and sync raise on a reference without partitions (C36_empty). For any view, is_synced answers exactly when the listing is not empty and each partition has a checksum and a readable axis (C36_answers), and its answer is True exactly when all the partitions are in step (C36_verdict, C36_verdict_history). |
| C37 View synchronisation keeps user data | partial | Proved: a partition whose axis only grew keeps the user's values as a prefix and is extended with fill values; a partition whose axis changed otherwise is reset to fill values; an unchanged one is left as is (C37_append_partial, C37_reset, C37_same). The full statement is false: a NaT in the axis makes an appended partition reset (C37_counterexample_nat) and a change of another dimension is not noticed (C37_counterexample_shape). |
| C38 Sync scope | partial | Proved: dry run of is_synced changes nothing, partitions outside the filter are untouched, what is reported unsynced is exactly what differs (C38_dry, C38_outside, C38_reported, C38_missing_partial). The full statement is false: sync(None) creates missing partitions (C38_counterexample_created) and sync(filters) creates partitions holding a checksum only (C38_counterexample_selected, C38_selected_not_loadable). |
| C39 A view never changes its reference | proved | The reference is unchanged by any history of operations on the view, the names of the view stay apart from those of the reference, additions, removals and updates with a name of the reference are refused. Not modelled: a view whose base directory is inside that of the reference, updates with overlap. |
| C40 View load returns the selected partitions | partial | Without indexer: any filters, selections covered by the reference or made of view variables only. With indexer: exact records, order and variables. The code ignores the filters when there is an indexer (C40_counterexample), ignores the slices when no reference variable is selected (C40_slices_ignored), and raises for selections whose view variables have a dimension that no selected reference variable has (C40_uncovered_raises). |
| C41 Index update replaces exactly the updated partitions | partial | Rows of the recomputed partitions are exactly the computed ones, the others are unchanged, for any history of updates; a failed update leaves the index unchanged. Missing: a partition whose function now returns no row keeps its stale rows (C41_stale, C41_counterexample). Writing of the parquet file not modelled. |
| C42 Index query returns the matching records | partial | Exact records for every operator, mask and set of matching rows without nesting; soundness and separation of the slices without that hypothesis (C42_sound). Missing: nested rows lose records (C42_counterexample); 'invert' with one column does not negate (C42_invert_ignored). |
| C43 Dataset slicing and concatenation | partial | Proved: selection by slices aligned across variables; slices concatenated in order give the dataset back (any cut, any rank); concat appends operands when arrays agree off-axis. Negated: concat silently drops the data of operands whose other dimensions differ (ValueError swallowed). |
| C44 Dataset dimensions are consistent | partial | Proved: constructor, derived datasets, rename, drops_vars, successful merge, add_variable with full-rank data, and any history of these. Negated: add_variable accepts data of lower rank; a failed merge leaves an inconsistent dataset. |
| C45 Failed dataset operations change nothing | partial | Proved for add_variable (all failures), single rename, early merge failures; exact leftover of a failed merge. Negated for merge and multi-variable rename. |
| C46 Copy is faithful | partial | Selected partitions and root files are copied exactly, nothing else is created or modified, and the copy lists exactly the selected partitions. Missing: the directory of immutable variables is not copied (C46_immutable_lost, C46_counterexample) and a filter that selects nothing raises ZeroDivisionError (C46_empty_raises). Parallel execution of the blocks is modelled as one block after the other. Without the argument filesystem, copy raises ValueError for every target that is not the name of a protocol (C46_no_filesystem). |
| C47 Inserting does not alter caller data | partial | Proved: exactly what insert, update and get_codecs do to the arguments of the caller; unchanged when the dataset has all variables / no overlap / names already listed. The full statement is false: insert adds the missing variables to the caller's dataset, update with an overlap extends the caller's list (C47_counterexample, C47_counterexample_update). |
| C48 Metadata comparison guards insertion | partial | Violated when the variables use the dimensions in another order (C48_counterexample). Without validation (the default) differing types are accepted (C48_default_counterexample). |
| C49 Validation finds exactly the broken partitions | partial | Exactly the partitions whose metadata differ are reported and, with fix, removed (C49_validate_partial). Violated: a missing .zmetadata raises KeyError, dimensions are not checked (C49_counterexample, C49_absent_metadata, C49_dimensions_not_checked). |
| C50 Mutual exclusion | partial | At most one process in the lock block and the lock is released on every path, for any interleaving (C50_lock); exclusion of the writes for delayed tasks that do not raise (C50_exclusion_partial). Missing: tasks submitted with Client.map/persist run before the lock is taken (C50_counterexample), tasks still run after the release when one of them raises (C50_counterexample_failure), is_locked stays true (C50_is_locked). |
| C51 Indexer driven load | partial | Proved for indexers whose selected partitions exist, slices within the partitions and a selected variable with the dimension of the partitioning: the dataset holds exactly the designated records, partitions in key order, slices in the order of the indexer, and the immutable variables (C51_indexed_partial, C51_none). The full statement is false: a partition absent from the collection makes the load raise (C51_absent_raises, C51_counterexample), and so does a selection without the dimension (C51_no_dimension_raises). |
| C52 In-memory compressed arrays behave like arrays | partial | Reading and concatenating proved. Negated: rechunk forgets the fill value, and numpy functions apply the fill value of the first operand to all of them. |
| C53 Directory walk and tree copy | proved | Walk: every directory once, parents first, exact and duplicate-free lists of directories and files. Copy: same tree below the target, nothing else modified, for a target outside the source. Paths are lists of components. |
| C54 Load returns the selected partitions in order | proved | For every store with the same variables in all partitions (Uniform) and immutable variables with fresh names; attributes (fill_attrs) are not modelled. |
| C55 Exact effect of the operations on a Dataset | proved | numpy and dask delete are modelled by their documentation; rename is stated for one pair of names (several pairs are applied one after the other). |
| C56 The variables of a view, its partitions and its configuration stay in step | partial | Proved for views that have a partition: effect of a successful addition, of a failed one on whoever reopens the view, when an addition is accepted, effect of a removal, and agreement of metadata, configuration and partitions over all histories of successful operations. The full statement is false: a variable added to a view without partition is not written to the configuration (C56_counterexample_empty); a failed addition stays in the metadata in memory (C56_counterexample_failure); drop_variable may raise although the variable was dropped (C56_drop_counterexample). |
| C57 Effect of View.update | partial | Proved for every mode: what an update may change, whatever its outcome. The values are proved for datasets that are not delayed (any depth), and without overlap for delayed ones when the callback returns arrays or a single dask array. The full statement is false: delayed datasets with an overlap show neighbours already updated (C57_counterexample_overlap), several dask arrays are computed after the first ones were overwritten (C57_counterexample_lazy), and with an overlap a single partition cannot be updated (C57_single). That an update succeeds is proved without overlap (C57_accepted, and C57_accepted_delayed for delayed datasets). |
| C58 View.map and View.map_overlap | partial | Proved in full for map; for map_overlap when the depth is positive and the selection is not a single partition. In the other cases map_overlap raises ValueError before calling the function (C58_overlap_alone, C58_overlap_counterexample). |
| C59 Missing values stay missing, and only they | partial | Exact condition for a masked array to be accepted (C59_accepted) and to be given back (C59_new_partial), effect of the setter of values, duplicate, fill; indexing, isel and delete commute with values; concat and load too when the fill values are the same. False in general: a fill value of another Python type is refused, a number equal to the fill value becomes missing, the setter keeps the fill value although documented otherwise, concat and load of different fill values turn missing values into numbers, and insert accepts such datasets (C59_*counterexample). |
| C60 Opening gives back what was created | partial | Collections: proved up to the tuples of attributes (they become lists) and the data types of a Sequence (they become int64); creation, refusals, opening without writing and renamed collections are proved for all cases. Views: proved except for filters that cannot be pickled, which are lost. Violated, with counterexamples: a creation that fails can leave a configuration or a view behind (metadata not writable as JSON, axis of a partition not readable), and a renamed or copied view is opened at its old place, where a new view is created if needed. |
| C61 Workers of one insertion do not interfere | proved | For tasks on distinct partitions (as insert makes them) whose SHA-256 names are distinct; both are needed (C61_same_partition_counterexample, C61_same_hash_counterexample). |
| C62 Crash safety of a parallel insertion | partial | Violated for existing partitions as in C26 (C62_counterexample). Proved: old content, new content, or new content complete in the own temporary directory of the partition (C62_killed_partial); new partitions complete or invisible if the writes of files are atomic (C62_killed_new_partial). |
| C63 Evaluating a delayed dataset keeps its data | partial | Violated: after persist, a fill value that is not of the type of the elements (a Python number) makes compute raise ValueError (C63_counterexample, C63_compute_raises), and DelayedArray.persist replaces the array by a tuple (C63_persist_counterexample). Proved for every sequence of Dataset.persist and Dataset.rechunk: no exception (C63_accepted_partial), same values (C63_values_partial), to_dict (C63_to_dict), compute for fill values of the type of the elements (C63_compute_partial) or without persist (C63_compute_fresh), dask.persist and dask.compute of a variable (C63_dask). |
| C64 Selecting variables by name | partial | Violated: an empty list selects everything in variables and to_dict (C64_empty_counterexample), a string is searched for substrings (C64_text_counterexample), an iterator gives the right answer only under the condition of C64_iterator_iff, and loses the variables of views and the immutable ones (C64_second_read_counterexample). Proved for lists that are not empty, and for every argument in the first read and in select_variables. |
| C65 Attributes of variables and datasets | partial | Violated: an insertion that does not validate (the default) drops the attributes of the dataset (C65_counterexample), the callbacks get variables without attributes (C65_callback_counterexample, C65_callback_partial), an attribute named _ARRAY_DIMENSIONS is lost (C65_zattrs_counterexample), and an object made stale by another one raises KeyError (C65_stale). Proved: every load after every history has the attributes of the metadata (C65_load, C65_kept, C65_added, C65_reopen, C65_view), partitions hold none (C65_stored), validated insertions are loaded with their attributes (C65_insert_partial), of several attributes of one name the last is stored (C65_zattrs_last), merging two datasets keeps one attribute of each name (C65_merge), and fill_attrs never fails for a collection in step with its metadata (C65_aligned_load). |
| C66 Records found with an index | partial | Proved: with an index that describes the collection, the load of a query returns the records of the conditions, once and in order (C66_query_load), or None (C66_nothing), and an update makes the index describe the collection when it has no row of a partition that does not exist (C66_update_partial, C66_indexed_partial). Violated: the rows of a partition dropped from the collection are never removed, and the load of a query that selects one raises (C66_counterexample, C66_dropped). |
| C67 Life of an index file | partial | Proved over all sequences of calls on all objects, for a class whose columns are not keys of the partitioning and objects created with the same metadata: no update is lost (C67_shared_partial), the index that is opened is the one that was updated (C67_reopen_partial) and answers queries from the table of the file (C67_answer), open and table before and after the first written row (C67_open), objects that have not read the table see the updates of the others (C67_fresh_partial). Violated: a column of the class that is a key of the partitioning makes the opened index answer nothing (C67_counterexample, C67_key_in_dtype); an object that has read the table does not see later updates by others (C67_fresh_counterexample, C67_cache); the metadata of a second object are dropped (C67_metadata_counterexample). |
| C68 A collection partitioned by date holds one time line | partial | Proved over all sequences of insertions: the loaded dates increase strictly, what is loaded was inserted and not replaced, what was not replaced and does not lie one tick after the end of a later insertion is loaded (C68_time_line); without such records, exactly what was not replaced (C68_content_partial); a Date of any resolution meets the hypotheses (C68_date, C68_date_order). Violated: the boundary error of C01 loses a record of the time line (C68_counterexample). |
| C69 Stored data stay until a call addresses them | proved | The records of an insertion are covered under the hypotheses of C22 (sorted keys, axis with the name of its dimension). C69_keyless_counterexample: a dataset that lacks a variable of the partitioning is completed with fill values and overwrites the partition of the fill value; such insertions are not among the calls that leave a partition. |
| C70 Expressions on the variables of a dataset | partial | C70_full fails: with a variable named `e` (C70_counterexample, in general C70_hidden and C70_hidden_function), and for operands whose dimensions are not nested, without any reserved name (C70_dims_counterexample). C70_pointwise_partial has every other expression of the syntax. Division by zero in masked arrays, types, and further arguments of functions are not modelled. |
| C71 The directories of a collection are those of its partitions | proved |  |
| C72 Compressed arrays stand for their arrays in a program | partial | Proved for all histories of constructions, rechunkings and assignments (C72_history, _shape, _outcome, _frame, _shared). False as stated (counterexamples proved): the mask of an assigned array is lost; a ufunc of a compressed array and a scalar of numpy raises TypeError, and uses one fill value for all; compressed arrays in a list or given by name make numpy functions recurse for ever, as does an in-place operator. The partial theorems state the cases that hold. |
| C73 Conversion of datasets to xarray and back | partial | False as stated (C73_counterexample): a missing element becomes NaN, which from_xarray does not hold as missing; (C73_counterexample_coordinates): coordinates that are not dimensions are lost. Proved: the image of every variable (C73_to_xarray), the coordinates, exactly when it fails (C73_accepted, C73_refused), from_xarray, the values that were not missing after the round trip (C73_round_trip_partial) and what becomes of the others (C73_missing), and that data, attributes and fill values are stable after the first conversion (C73_stable). xarray is a trusted reading; conventions other than fill values and coordinates are excluded by a hypothesis. |
| C74 Splitting dask arrays by several variables | partial | False as stated (C74_counterexample): with more variables than dask reduces at once, every split raises (C74_refused), since the function given to the reduction drops the dimension. Proved up to that number (C74_split_partial, C74_sorted_partial). The reduction of dask is a trusted reading of its source. |
| C75 Paths of collections, views and copies | partial | False as stated: a view below a directory that contains the text `key=` of the first key can be created and listed but never loaded (C75_refused, C75_counterexample); at the root of a file system filters read wrong keys (C75_root_counterexample) and no view can be created (C75_root_view); local file systems of recent versions of fsspec are not normalised (C75_spelling_counterexample). Proved for all other directories (C75_normalize, C75_same, C75_relative, C75_view, C75_load_partial, C75_copy). |
| C76 Datasets that share variables, memory or dictionaries | partial | False as stated for all methods: slices share memory (C76_counterexample), selections and merges share variables (C76_select_counterexample, C76_merge_counterexample), copy_properties shares the dictionary of chunks (C76_chunks_counterexample), Array keeps the array of the user (C76_array_counterexample). Proved: independence of what shares nothing (C76_frame, C76_rebinding), of copies (C76_copies_partial), of slices without writes in place (C76_slices_partial), the exact effect of a write through a slice (C76_write), that the values of a variable with a fill value or delayed are a copy (C76_values_copy), and that shared variables show the same for ever (C76_shared, C76_select_vars, C76_select_by_dims, C76_merge). |
| C77 A program on datasets behaves as if they were values | partial | False as stated for all programs: a dataset shows what is written into the array it was made of (C77_counterexample). Proved: each method gives the same on objects as on values (C77_select_vars ... C77_copy_properties, C77_values), the calls that can change another dataset (C77_others), one step (C77_step), programs without in-place changes (C77_untouched), programs whose in-place changes are to objects held once (C77_values_partial). Missing: programs that change shared objects; C76 says what they show. |
| C78 Reading while another process writes | partial | False as stated: old values of a variable are read together with new values of another one (C78_counterexample, C78_update_counterexample), and the chunks removed meanwhile are read as fill values, without error (C78_fill_counterexample). Proved for every interleaving and all moments: partitions outside of the batch (C78_others), new partitions are complete or raise KeyError (C78_new), readers that end before the removal or start after the end (C78_before, C78_after), and otherwise each chunk is the old one, the new one or missing (C78_replaced_partial, C78_dropped, C78_updated). Metadata being rewritten is never taken for valid (C78_torn). The behaviour of zarr for missing chunks is a trusted reading. |
| C79 The text of the configuration files | partial | False as stated: add_variable with a value that json refuses (an attribute that is a date) raises TypeError after it has destroyed .zcollection; the collection cannot be opened any more until the same process drops the variable (C79_counterexample, C79_broken, C79_repaired). A process stopped during the write leaves a file that is refused (C79_crash_counterexample). Proved at the level of characters, for all values and all sequences of calls: round trip of every writable value (C79_text, C79_exact, C79_again), of the configurations (C79_open, C79_view, C79_unchanged), what opening refuses or keeps of other texts (C79_control, C79_variables, C79_missing), refusal of every incomplete or longer text (C79_torn, C79_longer, C79_during), and the whole statement when the values of the variables added can be written (C79_history_partial). |
| C80 Variables that are not split can be inserted | partial | False as stated: insert selects the variables that are not split with the name of the axis, not with its dimension (C80_counterexample). When the two names differ, every insertion raises (C80_needs, C80_refused), no history of calls ever makes a partition (C80_never), the first attempt stores all the variables as not split (C80_leftover) and they cannot be removed any more (C80_stuck). Proved in full when the axis has the name of its dimension (C80_accepted_partial). |
| C81 A view shows the variables of its reference | partial | False as stated: a view ignores the directory .immutable of its reference, so that variables without the dimension of the partitioning are never loaded from a view nor given to callbacks (C81_counterexample, C81_hidden), and a variable with the dimensions of such a variable cannot be added: KeyError, after which loads raise until it is dropped (C81_add, C81_add_blocks). Proved for the split variables: equal variables in both loads (C81_same_partial), which both succeed (C81_shows_partial). Without indexer; with an indexer see C40 and C51. |
| C82 Attributes given as values of numpy | partial | False as stated: a date to the nanosecond (and the other times that numpy gives as numbers) is read as an integer (C82_counterexample, C82_counted), and metadata with a value that is not a number are not equal to themselves after a reopening, so that insert(validate=True) refuses every dataset (C82_equal). Proved: what is accepted (C82_accepted), what is refused, with the file of configuration destroyed (C82_refused, C82_nested), everything else is read as given (C82_held_partial), different arrays give different attributes unless a dimension is empty (C82_injective_partial, C82_shape_lost). numpy's item and tolist are trusted readings of numpy. |
| C83 The configuration of a view declares what its partitions hold, even after failures | partial | False as stated: add_variable declares the variable in memory before it can fail, and the next call that writes the configuration declares it in the file although no partition holds it (C83_written, C83_counterexample); the opened view then cannot be loaded (C83_unloadable). Proved: over all histories, the variables declared in the file that no partition may hold are exactly among those whose addition failed before a write, without a reopening or a removal in between (C83_stored_partial). sync with filters that select new partitions is excluded, it creates partitions without variables (C38_counterexample_selected). |
| C84 What a callback computes in an update is what load then returns | partial | False as stated: a callback that returns nothing for the first selected partition, without the argument variables, makes update skip all the partitions while it reports success (C84_counterexample), and several dask arrays are evaluated after the first was written (C31_lazy_counterexample). Proved for callbacks that return arrays or at most one dask array, and at least one variable or with variables given: update composed with load, for all selections (C84_read_partial). The same is proved for any number of updates followed by a load, each callback being given the values left by the updates before it (C84_history_partial); for updates that apply a function to each value of a variable, the load shows the functions of the updates of each partition applied in turn (C84_applied). |
| C85 What a callback computes in an update of a view is what the view then loads | partial | False as stated in the default mode when the callback returns several dask arrays: each is evaluated when it is written, after the first was overwritten (C85_counterexample); also with delayed datasets and an overlap (C57_counterexample_overlap). Proved for datasets that are not delayed, with any overlap, and without overlap for delayed ones when the callback returns arrays or at most one dask array: View.update composed with View.load (C85_read_partial). Assumes that a load of the selection is possible (the dimensions of the selected variables are covered, or only variables of the view are selected). The same is proved for any number of updates of the view followed by a load (C85_history_partial). The callbacks need only return well formed arrays when they are given such arrays. |
| C86 An update that fails or is interrupted leaves a collection, or a view, that can be loaded | proved | Collection.update with any result composed with load (C86_loads, C86_values), any schedule of the actions of the workers (C86_stopped), View.update with any result composed with View.load (C86_view, C86_view_values). The write of one array is one action: an interruption in the middle of the chunks of an array is not modelled. For a view, a load of the selection is assumed possible before the update (the dimensions of the selected variables are covered, or only variables of the view are selected). Several dask arrays are outside the second part of the statement: they are computed after the first was written (C31_lazy_counterexample); delayed datasets with an overlap or with several dask arrays are outside the third part (C57_counterexample_overlap, C57_counterexample_lazy). |

## Axioms of each theorem

P = `propext`, C = `Classical.choice`, Q = `Quot.sound` (output of `collectAxioms`, the function behind
`#print axioms`).

* C01: P: `C01_dataset_not_dates`; PCQ: `C01_dataset_errors`, `C01_dataset_partial`, `C01_errors`, `C01_partial`; PQ: `C01_counterexample`, `C01_error_counterexample`
* C02: PCQ: `C02_dataset_sorted`, `C02_sorted`
* C03: P: `C03_unsorted_counterexample`; PCQ: `C03_dataset_content`, `C03_sorted_content`; PQ: `C03_content`
* C04: PCQ: `C04_dataset_partial`, `C04_partial`; PQ: `C04_counterexample`
* C05: PCQ: `C05_dataset_negative_tolerance`, `C05_dataset_partial`, `C05_outcome`, `C05_partial`; PQ: `C05_counterexample`, `C05_negative_tolerance`
* C06: PCQ: `C06_groups`, `C06_relation_converse`, `C06_relation_correct`, `C06_relation_total`
* C07: P: `C07_intersection_unit`, `C07_mixed_units_counterexample`; PCQ: `C07_intersection_mem`, `C07_intersection_null`, `C07_intersects`, `C07_is_null`; none: `C07_intersects_null_counterexample`
* C08: PCQ: `C08_eq`, `C08_from_duration`, `C08_merge`, `C08_order`, `C08_shift_expand`, `C08_span`; PQ: `C08_length`
* C09: PCQ: `C09_concat`, `C09_cover_dates`, `C09_cover_rows`, `C09_cover_sequence`; PQ: `C09_exactly_one`
* C10: P: `C10_counterexample`, `C10_dataset_refused`, `C10_dates_counterexample`; PCQ: `C10_dataset_partial`, `C10_rows_partial`, `C10_sequence_partial`; PQ: `C10_dates_partial`, `C10_sequence_errors`
* C11: PCQ: `C11_keys_increasing_rows`, `C11_refused_rows_partial`, `C11_sorted_accepted_rows`; PQ: `C11_counterexample`, `C11_eager_first_occurrences`, `C11_keys_increasing_dates`, `C11_refused_dates_partial`, `C11_sorted_accepted_dates`
* C12: P: `C12_counterexample`; PCQ: `C12_rows_partial`; PQ: `C12_dates_partial`; none: `C12_empty`
* C13: PCQ: `C13_calendar`, `C13_fields`, `C13_fields_exist`, `C13_interval`, `C13_monotone`, `C13_split`
* C14: PCQ: `C14_counterexample`, `C14_encode_decode`, `C14_encode_names`, `C14_injective`, `C14_parse_partial`, `C14_partition_names`, `C14_refused`
* C15: PCQ: `C15_encode_decode`, `C15_injective`, `C15_parse`, `C15_partition_names`, `C15_refused`, `C15_short_year`
* C16: PCQ: `C16_listing`, `C16_no_hidden`, `C16_order_irrelevant`, `C16_refused`, `C16_short_dtype_counterexample`
* C17: P: `C17_config_consumed`, `C17_counterexample`, `C17_sequence_dtype`; PCQ: `C17_date`, `C17_date_keys`, `C17_dtype`, `C17_sequence_default`, `C17_sequence_partial`; PQ: `C17_unknown_argument`
* C18: P: `C18_limit`; PCQ: `C18_counterexample`, `C18_equality`, `C18_round_trip_partial`
* C19: P: `C19_bad_npartitions`, `C19_bad_sections`, `C19_empty_counterexample`; PCQ: `C19_insert_batches`, `C19_split_sequence`
* C20: PCQ: `C20_condition`, `C20_counterexample`, `C20_expression`, `C20_filter_raises`, `C20_immutable_excluded`, `C20_number`, `C20_selection_partial`; PQ: `C20_range_counterexample`, `C20_range_hidden`, `C20_unknown_name`
* C21: PCQ: `C21_delayed`, `C21_eager`, `C21_masked`, `C21_read_as`, `C21_update`; PQ: `C21_accepted`, `C21_nan_fill`
* C22: P: `C22_counterexample`, `C22_empty_raises`, `C22_load`; PCQ: `C22_accepted`, `C22_dataset_accepted`, `C22_dataset_failed_partial`, `C22_dataset_partial`, `C22_dataset_roundtrip_partial`, `C22_failed_insert_partial`, `C22_history_partial`, `C22_insert_partial`, `C22_merge_partial`, `C22_merge_records_partial`, `C22_roundtrip_partial`
* C23: PQ: `C23_order_irrelevant`, `C23_success_irrelevant`
* C24: PQ: `C24_counterexample`, `C24_failing_creation_partial`, `C24_gives_up`, `C24_no_trace_partial`
* C25: PCQ: `C25_counterexample`, `C25_failing_merge_partial`, `C25_move_loses_partition`, `C25_old_content`
* C26: PCQ: `C26_counterexample`, `C26_listing_fails`, `C26_recoverable_partial`, `C26_replacement`, `C26_retry_before_removal`, `C26_retry_loses_data`, `C26_temp_outside`; PQ: `C26_ignored_errors`
* C27: PCQ: `C27_commit_point_partial`, `C27_counterexample`, `C27_retry_partial`; PQ: `C27_failed_write_counterexample`, `C27_torn_counterexample`
* C28: PCQ: `C28_counterexample`, `C28_intact`, `C28_open`, `C28_read_only_partial`, `C28_refused`, `C28_removals`, `C28_session_partial`
* C29: PCQ: `C29_delay_shifted`; PQ: `C29_counterexample`, `C29_drop_partial`
* C30: P: `C30_validate`; PCQ: `C30_add`, `C30_add_accepted`, `C30_add_failed_partial`, `C30_axis_removed`, `C30_counterexample`, `C30_counterexample_empty`, `C30_counterexample_json`, `C30_counterexample_removal`, `C30_created`, `C30_drop`, `C30_history_partial`, `C30_insert`, `C30_merge_time_series`, `C30_no_template`, `C30_reopen`, `C30_update`; PQ: `C30_drop_partitions`
* C31: P: `C31_nothing_selected`, `C31_refused`; PCQ: `C31_accepted`, `C31_empty_selection`, `C31_frame`, `C31_frame_interrupted`, `C31_lazy_counterexample`, `C31_skip_counterexample`, `C31_values_partial`
* C32: PCQ: `C32_counterexample`, `C32_finishes_partial`, `C32_schedules_agree_partial`, `C32_sequential_partial`, `C32_snapshot_partial`
* C33: PCQ: `C33_alone`, `C33_counterexample`, `C33_immutable`, `C33_overlap_partial`, `C33_window`; PQ: `C33_neighbours`
* C34: PCQ: `C34_counterexample`, `C34_identity_partial`, `C34_unchanged`, `C34_unchanged_interleaved`
* C35: PCQ: `C35_map_selected_partial`; PQ: `C35_map`, `C35_map_overlap`
* C36: P: `C36_empty`; PCQ: `C36_history`, `C36_sync_partial`, `C36_verdict`, `C36_verdict_history`; PQ: `C36_answers`, `C36_counterexample`, `C36_total`
* C37: PCQ: `C37_append_partial`, `C37_counterexample`, `C37_counterexample_nat`, `C37_reset`, `C37_same`; PQ: `C37_counterexample_shape`
* C38: P: `C38_selected_not_loadable`; PCQ: `C38_missing_partial`, `C38_outside`, `C38_reported`; PQ: `C38_counterexample`, `C38_counterexample_created`, `C38_counterexample_selected`, `C38_dry`
* C39: P: `C39_create`, `C39_created`; PCQ: `C39_names`, `C39_reference`, `C39_step`, `C39_update_refused`; PQ: `C39_refused`
* C40: PCQ: `C40_counterexample`, `C40_filters_partial`, `C40_indexer_partial`, `C40_slices_ignored`, `C40_uncovered_raises`
* C41: PCQ: `C41_counterexample`, `C41_history_partial`, `C41_stale`, `C41_update_partial`; PQ: `C41_failure`
* C42: PCQ: `C42_all_columns_partial`, `C42_counterexample`, `C42_foreign`, `C42_query_partial`, `C42_sound`; PQ: `C42_invert_ignored`, `C42_unknown_operator`
* C43: PCQ: `C43_concat_counterexample`, `C43_concat_partial`, `C43_isel_aligned`, `C43_isel_integer`, `C43_slices_concat`
* C44: P: `C44_drops_vars`; PCQ: `C44_constructor`, `C44_constructor_raises`, `C44_counterexample`, `C44_derived`, `C44_failed_merge`, `C44_history_partial`, `C44_merge_partial`; PQ: `C44_add_variable_partial`, `C44_rename`
* C45: P: `C45_add_variable`, `C45_counterexample`, `C45_rename_counterexample`; PQ: `C45_failed_merge`, `C45_merge_partial`; none: `C45_rename_partial`
* C46: P: `C46_no_filesystem`; PCQ: `C46_copy_partial`, `C46_counterexample`, `C46_empty_raises`, `C46_immutable_lost`
* C47: P: `C47_counterexample`, `C47_counterexample_update`, `C47_get_codecs`, `C47_update_extended`, `C47_update_tuple`; PCQ: `C47_update_partial`; PQ: `C47_insert`, `C47_insert_partial`, `C47_update_tuple_selects`
* C48: PCQ: `C48_completed`, `C48_counterexample`, `C48_default_counterexample`, `C48_own`, `C48_unknown_refused`, `C48_validate_partial`
* C49: PCQ: `C49_absent_metadata`, `C49_counterexample`, `C49_dimensions_not_checked`, `C49_listing_parses`, `C49_validate_partial`
* C50: P: `C50_counterexample_failure`, `C50_lock`; PQ: `C50_can_leave`, `C50_exclusion_partial`; none: `C50_counterexample`, `C50_is_locked`
* C51: PCQ: `C51_counterexample`, `C51_indexed_partial`, `C51_no_dimension_raises`, `C51_none`; PQ: `C51_absent_raises`
* C52: P: `C52_ufunc_counterexample`, `C52_ufunc_partial`; PCQ: `C52_concatenate`, `C52_read`, `C52_rechunk_counterexample`, `C52_rechunk_partial`
* C53: PCQ: `C53_copy`, `C53_copy_exists`, `C53_copy_inside`, `C53_copy_missing`, `C53_walk`, `C53_walk_file`, `C53_walk_missing`
* C54: PCQ: `C54_load`, `C54_none`
* C55: PCQ: `C55_delete`, `C55_delete_accepted`, `C55_delete_refused`, `C55_select_by_dims`, `C55_select_vars`; PQ: `C55_add_variable`, `C55_drops_vars`, `C55_rename`
* C56: P: `C56_failure_stays`; PCQ: `C56_add_accepted`, `C56_add_failed_partial`, `C56_add_partial`, `C56_reopen_partial`, `C56_variables_partial`; PQ: `C56_counterexample_empty`, `C56_counterexample_failure`, `C56_drop_counterexample`, `C56_drop_partial`, `C56_drop_unknown`
* C57: PCQ: `C57_accepted`, `C57_accepted_delayed`, `C57_counterexample_lazy`, `C57_counterexample_overlap`, `C57_frame`, `C57_single`, `C57_values_partial`
* C58: P: `C58_empty`; PCQ: `C58_map`, `C58_overlap_alone`, `C58_overlap_counterexample`, `C58_overlap_partial`
* C59: P: `C59_concat_counterexample`, `C59_counterexample`, `C59_equal_counterexample`, `C59_setter_counterexample`, `C59_setter_error`, `C59_type_refused`; PCQ: `C59_dataset_concat_partial`, `C59_dataset_isel`, `C59_duplicate`, `C59_fill`, `C59_load_counterexample`, `C59_load_partial`; PQ: `C59_accepted`, `C59_concat_partial`, `C59_delete`, `C59_insert_counterexample`, `C59_isel`, `C59_item`, `C59_item_bounds`, `C59_item_values`, `C59_new_partial`, `C59_setter_masked`, `C59_setter_partial`
* C60: PCQ: `C60_counterexample`, `C60_create_effect`, `C60_create_error_counterexample`, `C60_create_error_partial`, `C60_create_exists`, `C60_create_torn`, `C60_empty_mode`, `C60_open_partial`, `C60_open_refused`, `C60_open_unchanged`, `C60_renamed`, `C60_round_trip_partial`, `C60_saved`, `C60_tuple_counterexample`, `C60_view_copied`, `C60_view_copied_counterexample`, `C60_view_counterexample`, `C60_view_create_effect`, `C60_view_error_counterexample`, `C60_view_error_partial`, `C60_view_exists`, `C60_view_failed`, `C60_view_no_reference`, `C60_view_open_partial`, `C60_view_renamed`, `C60_view_renamed_counterexample`, `C60_view_saved`
* C61: PCQ: `C61_batch`, `C61_batches`, `C61_batches_progress`, `C61_finished`, `C61_independent`, `C61_insert`, `C61_insert_effect`, `C61_insert_progress`, `C61_order`, `C61_others`, `C61_progress`, `C61_raised`, `C61_regions`, `C61_same_hash_counterexample`, `C61_same_partition_counterexample`
* C62: PCQ: `C62_counterexample`, `C62_killed_new_partial`, `C62_killed_partial`
* C63: PCQ: `C63_accepted_partial`, `C63_compute_fresh`, `C63_compute_partial`, `C63_compute_raises`, `C63_counterexample`, `C63_dask`, `C63_to_dict`, `C63_values_partial`; PQ: `C63_persist_counterexample`
* C64: PCQ: `C64_counterexample`, `C64_empty_counterexample`, `C64_first_read`, `C64_iterator`, `C64_iterator_iff`, `C64_second_read_counterexample`, `C64_second_read_partial`, `C64_select_variables`, `C64_text`, `C64_text_counterexample`, `C64_to_dict_partial`, `C64_variables_partial`, `C64_view_names`
* C65: P: `C65_added`, `C65_stale`, `C65_time_series`, `C65_zattrs_counterexample`; PCQ: `C65_aligned_load`, `C65_callback_counterexample`, `C65_callback_partial`, `C65_counterexample`, `C65_insert_partial`, `C65_kept`, `C65_load`, `C65_merge`, `C65_reopen`, `C65_stored`, `C65_zattrs_last`; PQ: `C65_view`, `C65_zattrs_partial`
* C66: PCQ: `C66_counterexample`, `C66_dropped`, `C66_indexed_partial`, `C66_nothing`, `C66_query_load`, `C66_update_partial`
* C67: PCQ: `C67_answer`, `C67_fresh_partial`, `C67_key_in_dtype`, `C67_open`, `C67_reopen_partial`, `C67_shared_partial`; PQ: `C67_cache`, `C67_counterexample`, `C67_fresh_counterexample`, `C67_metadata_counterexample`
* C68: PCQ: `C68_content_partial`, `C68_counterexample`, `C68_date`, `C68_date_order`, `C68_time_line`
* C69: PCQ: `C69_call`, `C69_history`, `C69_immutable`, `C69_inserted`, `C69_keyless_counterexample`
* C70: P: `C70_hidden`, `C70_hidden_function`; PCQ: `C70_broadcast`, `C70_counterexample`, `C70_dims_counterexample`, `C70_pointwise_partial`; PQ: `C70_attribute`, `C70_reads`, `C70_unknown`
* C71: PCQ: `C71_call`, `C71_date`, `C71_dropped`, `C71_frame`, `C71_history`, `C71_insert`, `C71_inserted`, `C71_listing`, `C71_refines`, `C71_sequence`
* C72: P: `C72_scalar`; PCQ: `C72_assign_counterexample`, `C72_assignable`, `C72_assigned_partial`, `C72_bad_key`, `C72_fill_counterexample`, `C72_frame`, `C72_function_counterexample`, `C72_function_partial`, `C72_history`, `C72_in_place`, `C72_outcome`, `C72_shape`, `C72_shared`, `C72_ufunc_counterexample`, `C72_ufunc_partial`; PQ: `C72_keyword`, `C72_method`, `C72_nested`
* C73: P: `C73_counterexample_coordinates`; PCQ: `C73_accepted`, `C73_coordinates`, `C73_from_xarray`, `C73_missing`, `C73_refused`, `C73_round_trip_partial`, `C73_stable`, `C73_to_xarray`, `C73_unmasked`; PQ: `C73_counterexample`
* C74: PCQ: `C74_sorted_partial`, `C74_split_partial`; PQ: `C74_counterexample`, `C74_refused`
* C75: PCQ: `C75_copy`, `C75_counterexample`, `C75_load_partial`, `C75_normalize`, `C75_refused`, `C75_relative`, `C75_root_counterexample`, `C75_root_view`, `C75_same`, `C75_spelling_counterexample`, `C75_view`
* C76: PCQ: `C76_copies_partial`, `C76_frame`, `C76_merge`, `C76_rebinding`, `C76_select_by_dims`, `C76_select_vars`, `C76_shared`, `C76_slices_partial`, `C76_values_copy`, `C76_write`; PQ: `C76_array_counterexample`, `C76_chunks_counterexample`, `C76_counterexample`, `C76_merge_counterexample`, `C76_select_counterexample`
* C77: PCQ: `C77_add_variable`, `C77_assign`, `C77_compute`, `C77_concat`, `C77_dataset`, `C77_delete`, `C77_drop_vars`, `C77_fill`, `C77_fill_attrs`, `C77_isel`, `C77_merge`, `C77_others`, `C77_pickle`, `C77_rechunk`, `C77_rename`, `C77_select_by_dims`, `C77_select_vars`, `C77_set_for_insertion`, `C77_step`, `C77_untouched`, `C77_values`, `C77_values_partial`; PQ: `C77_copy_properties`, `C77_counterexample`, `C77_set_chunk`
* C78: PCQ: `C78_after`, `C78_before`, `C78_counterexample`, `C78_fill_counterexample`, `C78_new`, `C78_others`, `C78_replaced_partial`; PQ: `C78_dropped`, `C78_torn`, `C78_update_counterexample`, `C78_updated`
* C79: PCQ: `C79_accepted`, `C79_again`, `C79_broken`, `C79_control`, `C79_counterexample`, `C79_crash_counterexample`, `C79_during`, `C79_exact`, `C79_fields`, `C79_history_partial`, `C79_longer`, `C79_missing`, `C79_open`, `C79_order`, `C79_pairs`, `C79_repaired`, `C79_text`, `C79_torn`, `C79_unchanged`, `C79_variables`, `C79_view`
* C80: PCQ: `C80_accepted_partial`, `C80_counterexample`, `C80_leftover`, `C80_needs`, `C80_never`, `C80_refused`, `C80_stuck`
* C81: PCQ: `C81_add`, `C81_add_blocks`, `C81_counterexample`, `C81_hidden`, `C81_same_partial`, `C81_shows_partial`
* C82: P: `C82_shape_lost`; PCQ: `C82_accepted`, `C82_counted`, `C82_counterexample`, `C82_equal`, `C82_held_partial`, `C82_nested`, `C82_refused`; PQ: `C82_injective_partial`
* C83: PCQ: `C83_counterexample`, `C83_declares`, `C83_stored_partial`, `C83_written`; PQ: `C83_unloadable`
* C84: PCQ: `C84_applied`, `C84_counterexample`, `C84_history_partial`, `C84_read_partial`
* C85: PCQ: `C85_counterexample`, `C85_history_partial`, `C85_read_partial`
* C86: PCQ: `C86_loads`, `C86_stopped`, `C86_values`, `C86_view`, `C86_view_values`
