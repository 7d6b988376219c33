{
 "claims": [
  {
   "property": "C01",
   "status": "partial",
   "theorems": [
    "Verif.C01_dataset_partial",
    "Verif.C01_dataset_errors",
    "Verif.C01_dataset_not_dates",
    "Verif.C01_counterexample",
    "Verif.C01_error_counterexample",
    "Verif.C01_partial",
    "Verif.C01_errors"
   ],
   "note": "merge_time_series drops a record one tick after the inserted data, or raises IndexError (counterexamples proved); exact condition for the correct result proved as C01_partial; for whole datasets with any variables: C01_dataset_partial (equivalence) and C01_dataset_errors"
  },
  {
   "property": "C02",
   "status": "proved",
   "theorems": [
    "Verif.C02_dataset_sorted",
    "Verif.C02_sorted"
   ],
   "note": "C02_dataset_sorted states it for whole datasets"
  },
  {
   "property": "C03",
   "status": "proved",
   "theorems": [
    "Verif.C03_dataset_content",
    "Verif.C03_content",
    "Verif.C03_sorted_content",
    "Verif.C03_unsorted_counterexample"
   ],
   "note": "inserted records are all kept once; nothing invented; the unsorted case is shown to lose records (C03_unsorted_counterexample), outside the documented precondition; C03_dataset_content states it for all the variables of whole datasets"
  },
  {
   "property": "C04",
   "status": "partial",
   "theorems": [
    "Verif.C04_dataset_partial",
    "Verif.C04_counterexample",
    "Verif.C04_partial"
   ],
   "note": "re-inserting the same data can delete an adjacent old record (counterexample proved); C04_dataset_partial for whole datasets"
  },
  {
   "property": "C05",
   "status": "partial",
   "theorems": [
    "Verif.C05_dataset_partial",
    "Verif.C05_dataset_negative_tolerance",
    "Verif.C05_outcome",
    "Verif.C05_counterexample",
    "Verif.C05_partial",
    "Verif.C05_negative_tolerance"
   ],
   "note": "violated by the same boundary error as C01 (counterexample proved); C05_dataset_partial and C05_dataset_negative_tolerance for whole datasets; C05_outcome gives, for any tolerance, what a merge that returns keeps and drops"
  },
  {
   "property": "C06",
   "status": "proved",
   "theorems": [
    "Verif.C06_relation_correct",
    "Verif.C06_relation_total",
    "Verif.C06_relation_converse",
    "Verif.C06_groups"
   ],
   "note": ""
  },
  {
   "property": "C07",
   "status": "proved",
   "theorems": [
    "Verif.C07_is_null",
    "Verif.C07_intersection_mem",
    "Verif.C07_intersection_unit",
    "Verif.C07_intersection_null",
    "Verif.C07_intersects",
    "Verif.C07_mixed_units_counterexample",
    "Verif.C07_intersects_null_counterexample"
   ],
   "note": "for periods of equal unit; mixed units and null periods have counterexamples"
  },
  {
   "property": "C08",
   "status": "proved",
   "theorems": [
    "Verif.C08_merge",
    "Verif.C08_span",
    "Verif.C08_order",
    "Verif.C08_length",
    "Verif.C08_shift_expand",
    "Verif.C08_from_duration",
    "Verif.C08_eq"
   ],
   "note": ""
  },
  {
   "property": "C09",
   "status": "proved",
   "theorems": [
    "Verif.C09_cover_rows",
    "Verif.C09_cover_dates",
    "Verif.C09_exactly_one",
    "Verif.C09_concat",
    "Verif.C09_cover_sequence"
   ],
   "note": ""
  },
  {
   "property": "C10",
   "status": "partial",
   "theorems": [
    "Verif.C10_dataset_partial",
    "Verif.C10_dataset_refused",
    "Verif.C10_counterexample",
    "Verif.C10_dates_counterexample",
    "Verif.C10_rows_partial",
    "Verif.C10_dates_partial",
    "Verif.C10_sequence_partial",
    "Verif.C10_sequence_errors"
   ],
   "note": "eager data with unsorted keys can be filed under a wrong key (counterexample proved); proved for lazy data and for sorted keys. C10_dataset_partial states it for whole datasets; C10_dataset_refused: a missing or multi-dimensional key variable is refused."
  },
  {
   "property": "C11",
   "status": "partial",
   "theorems": [
    "Verif.C11_keys_increasing_rows",
    "Verif.C11_keys_increasing_dates",
    "Verif.C11_sorted_accepted_rows",
    "Verif.C11_sorted_accepted_dates",
    "Verif.C11_counterexample",
    "Verif.C11_refused_rows_partial",
    "Verif.C11_refused_dates_partial",
    "Verif.C11_eager_first_occurrences"
   ],
   "note": "unsorted keys are not always refused for eager data (counterexample proved) For dask arrays and a Sequence, up to the number of variables that dask reduces at once (C74)."
  },
  {
   "property": "C12",
   "status": "partial",
   "theorems": [
    "Verif.C12_counterexample",
    "Verif.C12_rows_partial",
    "Verif.C12_dates_partial",
    "Verif.C12_empty"
   ],
   "note": "eager and lazy splits differ on unsorted keys (counterexample proved) and on an empty column For dask arrays and a Sequence, up to the number of variables that dask reduces at once (C74)."
  },
  {
   "property": "C13",
   "status": "proved",
   "theorems": [
    "Verif.C13_calendar",
    "Verif.C13_interval",
    "Verif.C13_fields",
    "Verif.C13_fields_exist",
    "Verif.C13_monotone",
    "Verif.C13_split"
   ],
   "note": "Calendar arithmetic of numpy datetime64 and of datetime.item modelled; the interval property holds for all instants, the field names for years 1-9999."
  },
  {
   "property": "C14",
   "status": "partial",
   "theorems": [
    "Verif.C14_parse_partial",
    "Verif.C14_refused",
    "Verif.C14_counterexample",
    "Verif.C14_injective",
    "Verif.C14_encode_decode",
    "Verif.C14_partition_names",
    "Verif.C14_encode_names"
   ],
   "note": "Violated when the path of the collection contains `firstkey=`: every partition is refused (C14_refused); proved for every other directory."
  },
  {
   "property": "C15",
   "status": "proved",
   "theorems": [
    "Verif.C15_parse",
    "Verif.C15_refused",
    "Verif.C15_encode_decode",
    "Verif.C15_short_year",
    "Verif.C15_partition_names",
    "Verif.C15_injective"
   ],
   "note": "Below a directory containing `year=` every partition is refused (C15_refused). Years 1000-9999 (the code does not pad shorter years to four digits)."
  },
  {
   "property": "C16",
   "status": "proved",
   "theorems": [
    "Verif.C16_listing",
    "Verif.C16_order_irrelevant",
    "Verif.C16_no_hidden",
    "Verif.C16_refused",
    "Verif.C16_short_dtype_counterexample"
   ],
   "note": "Excluded cases shown to raise: C16_refused (path containing `firstkey=`), C16_short_dtype_counterexample (fewer data types than variables)."
  },
  {
   "property": "C17",
   "status": "partial",
   "theorems": [
    "Verif.C17_counterexample",
    "Verif.C17_date",
    "Verif.C17_sequence_partial",
    "Verif.C17_sequence_default",
    "Verif.C17_dtype",
    "Verif.C17_date_keys",
    "Verif.C17_sequence_dtype",
    "Verif.C17_unknown_argument",
    "Verif.C17_config_consumed"
   ],
   "note": "Violated: the data types of a Sequence are not stored (C17_counterexample). Exact for Date and for Sequence with default types."
  },
  {
   "property": "C18",
   "status": "partial",
   "theorems": [
    "Verif.C18_equality",
    "Verif.C18_counterexample",
    "Verif.C18_round_trip_partial",
    "Verif.C18_limit"
   ],
   "note": "Violated for attributes whose value is a tuple (C18_counterexample). Equality is exactly equality up to order."
  },
  {
   "property": "C19",
   "status": "proved",
   "theorems": [
    "Verif.C19_split_sequence",
    "Verif.C19_bad_sections",
    "Verif.C19_empty_counterexample",
    "Verif.C19_insert_batches",
    "Verif.C19_bad_npartitions"
   ],
   "note": "The empty sequence raises instead of giving no block (C19_empty_counterexample)."
  },
  {
   "property": "C20",
   "status": "partial",
   "theorems": [
    "Verif.C20_condition",
    "Verif.C20_number",
    "Verif.C20_range_hidden",
    "Verif.C20_counterexample",
    "Verif.C20_selection_partial",
    "Verif.C20_filter_raises",
    "Verif.C20_immutable_excluded",
    "Verif.C20_expression",
    "Verif.C20_unknown_name",
    "Verif.C20_range_counterexample"
   ],
   "note": "Violated when the path of the collection occurs inside the relative path of a partition (C20_counterexample); proved otherwise. The builtin `range` hides a variable of that name (C20_range_counterexample)."
  },
  {
   "property": "C21",
   "status": "proved",
   "theorems": [
    "Verif.C21_read_as",
    "Verif.C21_eager",
    "Verif.C21_delayed",
    "Verif.C21_accepted",
    "Verif.C21_masked",
    "Verif.C21_nan_fill",
    "Verif.C21_update"
   ],
   "note": "All shapes, chunk sizes and fill values, eager and delayed reads, all-fill chunks omitted; masked inputs; update replaces values. C21_read_as covers values that zarr only holds equal to the fill value (-0.0). NaN fill values are never missing (C21_nan_fill)."
  },
  {
   "property": "C22",
   "status": "partial",
   "theorems": [
    "Verif.C22_insert_partial",
    "Verif.C22_failed_insert_partial",
    "Verif.C22_counterexample",
    "Verif.C22_load",
    "Verif.C22_roundtrip_partial",
    "Verif.C22_history_partial",
    "Verif.C22_accepted",
    "Verif.C22_empty_raises",
    "Verif.C22_merge_partial",
    "Verif.C22_merge_records_partial",
    "Verif.C22_dataset_partial",
    "Verif.C22_dataset_failed_partial",
    "Verif.C22_dataset_roundtrip_partial",
    "Verif.C22_dataset_accepted"
   ],
   "note": "Proved for columns of keys that are sorted or split in delayed mode: exact effect of one insertion (C22_insert_partial), of a failing one (C22_failed_insert_partial), insertion then load (C22_roundtrip_partial), any number of insertions (C22_history_partial). The eager split accepts keys that are not sorted and misplaces records (C22_counterexample); an empty dataset raises (C22_empty_raises). For whole datasets with any number of variables, dimensions and immutable variables: C22_dataset_partial (effect on every partition), C22_dataset_failed_partial, C22_dataset_roundtrip_partial (insertion then load gives back the dataset), C22_dataset_accepted (such an insertion succeeds). With merge_time_series as callback: C22_merge_partial and C22_merge_records_partial (content of every partition after the insertion)."
  },
  {
   "property": "C23",
   "status": "proved",
   "theorems": [
    "Verif.C23_order_irrelevant",
    "Verif.C23_success_irrelevant"
   ],
   "note": "For each two arrangements of the tasks in batches, success is the same and so is the store (C23_order_irrelevant, C23_success_irrelevant)."
  },
  {
   "property": "C24",
   "status": "partial",
   "theorems": [
    "Verif.C24_failing_creation_partial",
    "Verif.C24_no_trace_partial",
    "Verif.C24_gives_up",
    "Verif.C24_counterexample"
   ],
   "note": "Proved when one of the ten removal attempts succeeds, for a failure at any step with any steps of other threads (C24_failing_creation_partial, C24_no_trace_partial). `_rm` gives up silently after ten attempts (C24_gives_up, C24_counterexample)."
  },
  {
   "property": "C25",
   "status": "partial",
   "theorems": [
    "Verif.C25_failing_merge_partial",
    "Verif.C25_old_content",
    "Verif.C25_counterexample",
    "Verif.C25_move_loses_partition"
   ],
   "note": "Proved for a failure of the merge callback or of the writes (C25_failing_merge_partial). A failure of init_group leaves the temporary directory (C25_counterexample); a failure of the final move loses the partition (C25_move_loses_partition)."
  },
  {
   "property": "C26",
   "status": "partial",
   "theorems": [
    "Verif.C26_recoverable_partial",
    "Verif.C26_counterexample",
    "Verif.C26_retry_loses_data",
    "Verif.C26_replacement",
    "Verif.C26_retry_before_removal",
    "Verif.C26_ignored_errors",
    "Verif.C26_temp_outside",
    "Verif.C26_listing_fails"
   ],
   "note": "Violated: between removal and renaming the partition is absent (C26_counterexample), a retry then drops the old records (C26_retry_loses_data), and the temporary directory makes every listing raise (C26_listing_fails). Proved: at each crash point the old or new content exists in full in the partition or in the temporary directory (C26_recoverable_partial), and a retry before the removal starts gives the merged data."
  },
  {
   "property": "C27",
   "status": "partial",
   "theorems": [
    "Verif.C27_commit_point_partial",
    "Verif.C27_retry_partial",
    "Verif.C27_counterexample",
    "Verif.C27_torn_counterexample",
    "Verif.C27_failed_write_counterexample"
   ],
   "note": "Proved with atomic file writes: without the last step the partition is not taken for an existing one. The next insertion raises ContainsGroupError (assumed behaviour of zarr init_group) and removes the rest; the one after it succeeds (C27_retry_partial, C27_counterexample). Torn metadata and a failed write of a variable break it (C27_torn_counterexample, C27_failed_write_counterexample)."
  },
  {
   "property": "C28",
   "status": "partial",
   "theorems": [
    "Verif.C28_read_only_partial",
    "Verif.C28_refused",
    "Verif.C28_open",
    "Verif.C28_session_partial",
    "Verif.C28_removals",
    "Verif.C28_intact",
    "Verif.C28_counterexample"
   ],
   "note": "Proved for all sequences of calls on a read-only object: files unchanged unless validate_partitions(fix=True) is called, the five replaced methods raise io.UnsupportedOperation, and in general only unreadable partitions can disappear. The full statement is false: validate_partitions(fix=True) deletes in read-only mode (C28_counterexample)."
  },
  {
   "property": "C29",
   "status": "partial",
   "theorems": [
    "Verif.C29_drop_partial",
    "Verif.C29_counterexample",
    "Verif.C29_delay_shifted"
   ],
   "note": "Proved when no delay is given, or creation times are local times or local time is UTC (C29_drop_partial). A naive local `now` is compared with a UTC creation time otherwise (C29_counterexample, C29_delay_shifted)."
  },
  {
   "property": "C30",
   "status": "partial",
   "theorems": [
    "Verif.C30_merge_time_series",
    "Verif.C30_drop",
    "Verif.C30_add",
    "Verif.C30_add_failed_partial",
    "Verif.C30_counterexample",
    "Verif.C30_axis_removed",
    "Verif.C30_counterexample_json",
    "Verif.C30_counterexample_empty",
    "Verif.C30_counterexample_removal",
    "Verif.C30_reopen",
    "Verif.C30_created",
    "Verif.C30_insert",
    "Verif.C30_drop_partitions",
    "Verif.C30_validate",
    "Verif.C30_update",
    "Verif.C30_history_partial",
    "Verif.C30_add_accepted",
    "Verif.C30_no_template"
   ],
   "note": "Proved: successful add_variable/drop_variable, failed additions with a partition and JSON-serialisable metadata, insert, update, drop_partitions, validate_partitions, reopening, and all histories of such calls keep partitions, configuration and metadata in step. The full statement is false: dropping the axis, non-serialisable metadata, collections without partition, failing removals (C30_counterexample*). C30_merge_time_series: the merge callback meets the hypothesis made on callbacks."
  },
  {
   "property": "C31",
   "status": "partial",
   "theorems": [
    "Verif.C31_frame",
    "Verif.C31_frame_interrupted",
    "Verif.C31_values_partial",
    "Verif.C31_lazy_counterexample",
    "Verif.C31_skip_counterexample",
    "Verif.C31_empty_selection",
    "Verif.C31_accepted",
    "Verif.C31_nothing_selected",
    "Verif.C31_refused"
   ],
   "note": "Frame proved for every callback, outcome and interruption. Values proved for callbacks returning arrays, or at most one dask array, and at least one variable. Violated (proved) when several dask arrays are returned (they are evaluated when written, after the other variable was replaced) and when the callback returns nothing for the first partition (all partitions are skipped). C31_accepted: when an update without overlap succeeds; C31_nothing_selected and C31_refused: the updates that do nothing, or are refused before the first write."
  },
  {
   "property": "C32",
   "status": "partial",
   "theorems": [
    "Verif.C32_snapshot_partial",
    "Verif.C32_schedules_agree_partial",
    "Verif.C32_finishes_partial",
    "Verif.C32_sequential_partial",
    "Verif.C32_counterexample"
   ],
   "note": "Proved for every schedule of the workers without overlap, or when the callback does not read the variables it updates. Violated (proved) with an overlap: neighbours already updated are read."
  },
  {
   "property": "C33",
   "status": "partial",
   "theorems": [
    "Verif.C33_neighbours",
    "Verif.C33_window",
    "Verif.C33_overlap_partial",
    "Verif.C33_immutable",
    "Verif.C33_counterexample",
    "Verif.C33_alone"
   ],
   "note": "Window, content and slice proved for every list of partitions of any sizes, every depth, without immutable variables; depth 0 proved with them. With immutable variables and an overlap the load always raises (C33_immutable), because the partition is merged with itself."
  },
  {
   "property": "C34",
   "status": "partial",
   "theorems": [
    "Verif.C34_unchanged",
    "Verif.C34_unchanged_interleaved",
    "Verif.C34_identity_partial",
    "Verif.C34_counterexample"
   ],
   "note": "The collection is never changed: proved for every depth, outcome, kind of array and schedule. Success of the update proved without immutable variables; with them the update raises (C34_counterexample)."
  },
  {
   "property": "C35",
   "status": "partial",
   "theorems": [
    "Verif.C35_map_selected_partial",
    "Verif.C35_map",
    "Verif.C35_map_overlap"
   ],
   "note": "map and map_overlap proved over any list of selected partitions, including the failures; composed with the listing and the filters for the directories of C20. Missing: the collections whose path breaks the filters or the parsing (C14, C20)."
  },
  {
   "property": "C36",
   "status": "partial",
   "theorems": [
    "Verif.C36_sync_partial",
    "Verif.C36_total",
    "Verif.C36_empty",
    "Verif.C36_history",
    "Verif.C36_counterexample",
    "Verif.C36_answers",
    "Verif.C36_verdict",
    "Verif.C36_verdict_history"
   ],
   "note": "Proved: after sync() of a reachable view with a non-empty reference every reference partition has a view partition with the axis, lengths and checksum of the reference, extra partitions of the view are untouched, and is_synced() then answers yes, under NoCollision (no SHA-256 collision between compared axes) (C36_sync_partial, C36_total, C36_history). The full statement is false: add_variable on a view out of step gives arrays of the wrong length (C36_counterexample), and is_synced and sync raise on a reference without partitions (C36_empty). For any view, is_synced answers exactly when the listing is not empty and each partition has a checksum and a readable axis (C36_answers), and its answer is True exactly when all the partitions are in step (C36_verdict, C36_verdict_history)."
  },
  {
   "property": "C37",
   "status": "partial",
   "theorems": [
    "Verif.C37_append_partial",
    "Verif.C37_reset",
    "Verif.C37_same",
    "Verif.C37_counterexample_nat",
    "Verif.C37_counterexample_shape",
    "Verif.C37_counterexample"
   ],
   "note": "Proved: a partition whose axis only grew keeps the user's values as a prefix and is extended with fill values; a partition whose axis changed otherwise is reset to fill values; an unchanged one is left as is (C37_append_partial, C37_reset, C37_same). The full statement is false: a NaT in the axis makes an appended partition reset (C37_counterexample_nat) and a change of another dimension is not noticed (C37_counterexample_shape)."
  },
  {
   "property": "C38",
   "status": "partial",
   "theorems": [
    "Verif.C38_dry",
    "Verif.C38_outside",
    "Verif.C38_reported",
    "Verif.C38_missing_partial",
    "Verif.C38_counterexample_created",
    "Verif.C38_counterexample_selected",
    "Verif.C38_counterexample",
    "Verif.C38_selected_not_loadable"
   ],
   "note": "Proved: dry run of is_synced changes nothing, partitions outside the filter are untouched, what is reported unsynced is exactly what differs (C38_dry, C38_outside, C38_reported, C38_missing_partial). The full statement is false: sync(None) creates missing partitions (C38_counterexample_created) and sync(filters) creates partitions holding a checksum only (C38_counterexample_selected, C38_selected_not_loadable)."
  },
  {
   "property": "C39",
   "status": "proved",
   "theorems": [
    "Verif.C39_step",
    "Verif.C39_reference",
    "Verif.C39_create",
    "Verif.C39_names",
    "Verif.C39_created",
    "Verif.C39_refused",
    "Verif.C39_update_refused"
   ],
   "note": "The reference is unchanged by any history of operations on the view, the names of the view stay apart from those of the reference, additions, removals and updates with a name of the reference are refused. Not modelled: a view whose base directory is inside that of the reference, updates with overlap."
  },
  {
   "property": "C40",
   "status": "partial",
   "theorems": [
    "Verif.C40_filters_partial",
    "Verif.C40_indexer_partial",
    "Verif.C40_uncovered_raises",
    "Verif.C40_slices_ignored",
    "Verif.C40_counterexample"
   ],
   "note": "Without indexer: any filters, selections covered by the reference or made of view variables only. With indexer: exact records, order and variables. The code ignores the filters when there is an indexer (C40_counterexample), ignores the slices when no reference variable is selected (C40_slices_ignored), and raises for selections whose view variables have a dimension that no selected reference variable has (C40_uncovered_raises)."
  },
  {
   "property": "C41",
   "status": "partial",
   "theorems": [
    "Verif.C41_update_partial",
    "Verif.C41_failure",
    "Verif.C41_stale",
    "Verif.C41_history_partial",
    "Verif.C41_counterexample"
   ],
   "note": "Rows of the recomputed partitions are exactly the computed ones, the others are unchanged, for any history of updates; a failed update leaves the index unchanged. Missing: a partition whose function now returns no row keeps its stale rows (C41_stale, C41_counterexample). Writing of the parquet file not modelled."
  },
  {
   "property": "C42",
   "status": "partial",
   "theorems": [
    "Verif.C42_query_partial",
    "Verif.C42_sound",
    "Verif.C42_all_columns_partial",
    "Verif.C42_unknown_operator",
    "Verif.C42_foreign",
    "Verif.C42_invert_ignored",
    "Verif.C42_counterexample"
   ],
   "note": "Exact records for every operator, mask and set of matching rows without nesting; soundness and separation of the slices without that hypothesis (C42_sound). Missing: nested rows lose records (C42_counterexample); 'invert' with one column does not negate (C42_invert_ignored)."
  },
  {
   "property": "C43",
   "status": "partial",
   "theorems": [
    "Verif.C43_slices_concat",
    "Verif.C43_isel_aligned",
    "Verif.C43_concat_partial",
    "Verif.C43_concat_counterexample",
    "Verif.C43_isel_integer"
   ],
   "note": "Proved: selection by slices aligned across variables; slices concatenated in order give the dataset back (any cut, any rank); concat appends operands when arrays agree off-axis. Negated: concat silently drops the data of operands whose other dimensions differ (ValueError swallowed)."
  },
  {
   "property": "C44",
   "status": "partial",
   "theorems": [
    "Verif.C44_constructor",
    "Verif.C44_constructor_raises",
    "Verif.C44_derived",
    "Verif.C44_rename",
    "Verif.C44_drops_vars",
    "Verif.C44_add_variable_partial",
    "Verif.C44_merge_partial",
    "Verif.C44_history_partial",
    "Verif.C44_counterexample",
    "Verif.C44_failed_merge"
   ],
   "note": "Proved: constructor, derived datasets, rename, drops_vars, successful merge, add_variable with full-rank data, and any history of these. Negated: add_variable accepts data of lower rank; a failed merge leaves an inconsistent dataset."
  },
  {
   "property": "C45",
   "status": "partial",
   "theorems": [
    "Verif.C45_add_variable",
    "Verif.C45_rename_partial",
    "Verif.C45_merge_partial",
    "Verif.C45_failed_merge",
    "Verif.C45_counterexample",
    "Verif.C45_rename_counterexample"
   ],
   "note": "Proved for add_variable (all failures), single rename, early merge failures; exact leftover of a failed merge. Negated for merge and multi-variable rename."
  },
  {
   "property": "C46",
   "status": "partial",
   "theorems": [
    "Verif.C46_copy_partial",
    "Verif.C46_empty_raises",
    "Verif.C46_immutable_lost",
    "Verif.C46_counterexample",
    "Verif.C46_no_filesystem"
   ],
   "note": "Selected partitions and root files are copied exactly, nothing else is created or modified, and the copy lists exactly the selected partitions. Missing: the directory of immutable variables is not copied (C46_immutable_lost, C46_counterexample) and a filter that selects nothing raises ZeroDivisionError (C46_empty_raises). Parallel execution of the blocks is modelled as one block after the other. Without the argument filesystem, copy raises ValueError for every target that is not the name of a protocol (C46_no_filesystem)."
  },
  {
   "property": "C47",
   "status": "partial",
   "theorems": [
    "Verif.C47_insert",
    "Verif.C47_insert_partial",
    "Verif.C47_update_partial",
    "Verif.C47_update_extended",
    "Verif.C47_update_tuple",
    "Verif.C47_update_tuple_selects",
    "Verif.C47_get_codecs",
    "Verif.C47_counterexample",
    "Verif.C47_counterexample_update"
   ],
   "note": "Proved: exactly what insert, update and get_codecs do to the arguments of the caller; unchanged when the dataset has all variables / no overlap / names already listed. The full statement is false: insert adds the missing variables to the caller's dataset, update with an overlap extends the caller's list (C47_counterexample, C47_counterexample_update)."
  },
  {
   "property": "C48",
   "status": "partial",
   "theorems": [
    "Verif.C48_counterexample",
    "Verif.C48_validate_partial",
    "Verif.C48_unknown_refused",
    "Verif.C48_completed",
    "Verif.C48_default_counterexample",
    "Verif.C48_own"
   ],
   "note": "Violated when the variables use the dimensions in another order (C48_counterexample). Without validation (the default) differing types are accepted (C48_default_counterexample)."
  },
  {
   "property": "C49",
   "status": "partial",
   "theorems": [
    "Verif.C49_validate_partial",
    "Verif.C49_absent_metadata",
    "Verif.C49_dimensions_not_checked",
    "Verif.C49_counterexample",
    "Verif.C49_listing_parses"
   ],
   "note": "Exactly the partitions whose metadata differ are reported and, with fix, removed (C49_validate_partial). Violated: a missing .zmetadata raises KeyError, dimensions are not checked (C49_counterexample, C49_absent_metadata, C49_dimensions_not_checked)."
  },
  {
   "property": "C50",
   "status": "partial",
   "theorems": [
    "Verif.C50_lock",
    "Verif.C50_can_leave",
    "Verif.C50_exclusion_partial",
    "Verif.C50_counterexample",
    "Verif.C50_counterexample_failure",
    "Verif.C50_is_locked"
   ],
   "note": "At most one process in the lock block and the lock is released on every path, for any interleaving (C50_lock); exclusion of the writes for delayed tasks that do not raise (C50_exclusion_partial). Missing: tasks submitted with Client.map/persist run before the lock is taken (C50_counterexample), tasks still run after the release when one of them raises (C50_counterexample_failure), is_locked stays true (C50_is_locked)."
  },
  {
   "property": "C51",
   "status": "partial",
   "theorems": [
    "Verif.C51_indexed_partial",
    "Verif.C51_none",
    "Verif.C51_absent_raises",
    "Verif.C51_no_dimension_raises",
    "Verif.C51_counterexample"
   ],
   "note": "Proved for indexers whose selected partitions exist, slices within the partitions and a selected variable with the dimension of the partitioning: the dataset holds exactly the designated records, partitions in key order, slices in the order of the indexer, and the immutable variables (C51_indexed_partial, C51_none). The full statement is false: a partition absent from the collection makes the load raise (C51_absent_raises, C51_counterexample), and so does a selection without the dimension (C51_no_dimension_raises)."
  },
  {
   "property": "C52",
   "status": "partial",
   "theorems": [
    "Verif.C52_read",
    "Verif.C52_rechunk_partial",
    "Verif.C52_rechunk_counterexample",
    "Verif.C52_concatenate",
    "Verif.C52_ufunc_partial",
    "Verif.C52_ufunc_counterexample"
   ],
   "note": "Reading and concatenating proved. Negated: rechunk forgets the fill value, and numpy functions apply the fill value of the first operand to all of them."
  },
  {
   "property": "C53",
   "status": "proved",
   "theorems": [
    "Verif.C53_walk",
    "Verif.C53_walk_missing",
    "Verif.C53_walk_file",
    "Verif.C53_copy",
    "Verif.C53_copy_exists",
    "Verif.C53_copy_missing",
    "Verif.C53_copy_inside"
   ],
   "note": "Walk: every directory once, parents first, exact and duplicate-free lists of directories and files. Copy: same tree below the target, nothing else modified, for a target outside the source. Paths are lists of components."
  },
  {
   "property": "C54",
   "status": "proved",
   "theorems": [
    "Verif.C54_load",
    "Verif.C54_none"
   ],
   "note": "For every store with the same variables in all partitions (Uniform) and immutable variables with fresh names; attributes (fill_attrs) are not modelled."
  },
  {
   "property": "C55",
   "status": "proved",
   "theorems": [
    "Verif.C55_delete",
    "Verif.C55_delete_accepted",
    "Verif.C55_delete_refused",
    "Verif.C55_select_vars",
    "Verif.C55_select_by_dims",
    "Verif.C55_drops_vars",
    "Verif.C55_rename",
    "Verif.C55_add_variable"
   ],
   "note": "numpy and dask delete are modelled by their documentation; rename is stated for one pair of names (several pairs are applied one after the other)."
  },
  {
   "property": "C56",
   "status": "partial",
   "theorems": [
    "Verif.C56_add_partial",
    "Verif.C56_add_failed_partial",
    "Verif.C56_add_accepted",
    "Verif.C56_drop_partial",
    "Verif.C56_drop_unknown",
    "Verif.C56_reopen_partial",
    "Verif.C56_variables_partial",
    "Verif.C56_counterexample_empty",
    "Verif.C56_counterexample_failure",
    "Verif.C56_failure_stays",
    "Verif.C56_drop_counterexample"
   ],
   "note": "Proved for views that have a partition: effect of a successful addition, of a failed one on whoever reopens the view, when an addition is accepted, effect of a removal, and agreement of metadata, configuration and partitions over all histories of successful operations. The full statement is false: a variable added to a view without partition is not written to the configuration (C56_counterexample_empty); a failed addition stays in the metadata in memory (C56_counterexample_failure); drop_variable may raise although the variable was dropped (C56_drop_counterexample)."
  },
  {
   "property": "C57",
   "status": "partial",
   "theorems": [
    "Verif.C57_frame",
    "Verif.C57_values_partial",
    "Verif.C57_accepted",
    "Verif.C57_single",
    "Verif.C57_counterexample_overlap",
    "Verif.C57_counterexample_lazy",
    "Verif.C57_accepted_delayed"
   ],
   "note": "Proved for every mode: what an update may change, whatever its outcome. The values are proved for datasets that are not delayed (any depth), and without overlap for delayed ones when the callback returns arrays or a single dask array. The full statement is false: delayed datasets with an overlap show neighbours already updated (C57_counterexample_overlap), several dask arrays are computed after the first ones were overwritten (C57_counterexample_lazy), and with an overlap a single partition cannot be updated (C57_single). That an update succeeds is proved without overlap (C57_accepted, and C57_accepted_delayed for delayed datasets)."
  },
  {
   "property": "C58",
   "status": "partial",
   "theorems": [
    "Verif.C58_map",
    "Verif.C58_empty",
    "Verif.C58_overlap_partial",
    "Verif.C58_overlap_alone",
    "Verif.C58_overlap_counterexample"
   ],
   "note": "Proved in full for map; for map_overlap when the depth is positive and the selection is not a single partition. In the other cases map_overlap raises ValueError before calling the function (C58_overlap_alone, C58_overlap_counterexample)."
  },
  {
   "property": "C59",
   "status": "partial",
   "theorems": [
    "Verif.C59_item_values",
    "Verif.C59_item_bounds",
    "Verif.C59_type_refused",
    "Verif.C59_accepted",
    "Verif.C59_new_partial",
    "Verif.C59_counterexample",
    "Verif.C59_equal_counterexample",
    "Verif.C59_setter_error",
    "Verif.C59_setter_partial",
    "Verif.C59_setter_counterexample",
    "Verif.C59_setter_masked",
    "Verif.C59_duplicate",
    "Verif.C59_fill",
    "Verif.C59_item",
    "Verif.C59_isel",
    "Verif.C59_delete",
    "Verif.C59_concat_partial",
    "Verif.C59_concat_counterexample",
    "Verif.C59_dataset_isel",
    "Verif.C59_dataset_concat_partial",
    "Verif.C59_load_partial",
    "Verif.C59_load_counterexample",
    "Verif.C59_insert_counterexample"
   ],
   "note": "Exact condition for a masked array to be accepted (C59_accepted) and to be given back (C59_new_partial), effect of the setter of values, duplicate, fill; indexing, isel and delete commute with values; concat and load too when the fill values are the same. False in general: a fill value of another Python type is refused, a number equal to the fill value becomes missing, the setter keeps the fill value although documented otherwise, concat and load of different fill values turn missing values into numbers, and insert accepts such datasets (C59_*counterexample)."
  },
  {
   "property": "C60",
   "status": "partial",
   "theorems": [
    "Verif.C60_create_exists",
    "Verif.C60_create_effect",
    "Verif.C60_create_error_partial",
    "Verif.C60_create_torn",
    "Verif.C60_open_unchanged",
    "Verif.C60_empty_mode",
    "Verif.C60_open_refused",
    "Verif.C60_open_partial",
    "Verif.C60_round_trip_partial",
    "Verif.C60_renamed",
    "Verif.C60_counterexample",
    "Verif.C60_tuple_counterexample",
    "Verif.C60_create_error_counterexample",
    "Verif.C60_saved",
    "Verif.C60_view_exists",
    "Verif.C60_view_no_reference",
    "Verif.C60_view_create_effect",
    "Verif.C60_view_open_partial",
    "Verif.C60_view_saved",
    "Verif.C60_view_error_partial",
    "Verif.C60_view_failed",
    "Verif.C60_view_copied",
    "Verif.C60_view_renamed",
    "Verif.C60_view_counterexample",
    "Verif.C60_view_renamed_counterexample",
    "Verif.C60_view_copied_counterexample",
    "Verif.C60_view_error_counterexample"
   ],
   "note": "Collections: proved up to the tuples of attributes (they become lists) and the data types of a Sequence (they become int64); creation, refusals, opening without writing and renamed collections are proved for all cases. Views: proved except for filters that cannot be pickled, which are lost. Violated, with counterexamples: a creation that fails can leave a configuration or a view behind (metadata not writable as JSON, axis of a partition not readable), and a renamed or copied view is opened at its old place, where a new view is created if needed."
  },
  {
   "property": "C61",
   "status": "proved",
   "theorems": [
    "Verif.C61_independent",
    "Verif.C61_order",
    "Verif.C61_progress",
    "Verif.C61_regions",
    "Verif.C61_raised",
    "Verif.C61_others",
    "Verif.C61_finished",
    "Verif.C61_same_partition_counterexample",
    "Verif.C61_same_hash_counterexample",
    "Verif.C61_batch",
    "Verif.C61_batches",
    "Verif.C61_batches_progress",
    "Verif.C61_insert",
    "Verif.C61_insert_effect",
    "Verif.C61_insert_progress"
   ],
   "note": "For tasks on distinct partitions (as insert makes them) whose SHA-256 names are distinct; both are needed (C61_same_partition_counterexample, C61_same_hash_counterexample)."
  },
  {
   "property": "C62",
   "status": "partial",
   "theorems": [
    "Verif.C62_killed_partial",
    "Verif.C62_killed_new_partial",
    "Verif.C62_counterexample"
   ],
   "note": "Violated for existing partitions as in C26 (C62_counterexample). Proved: old content, new content, or new content complete in the own temporary directory of the partition (C62_killed_partial); new partitions complete or invisible if the writes of files are atomic (C62_killed_new_partial)."
  },
  {
   "property": "C63",
   "status": "partial",
   "theorems": [
    "Verif.C63_accepted_partial",
    "Verif.C63_values_partial",
    "Verif.C63_dask",
    "Verif.C63_compute_partial",
    "Verif.C63_compute_fresh",
    "Verif.C63_compute_raises",
    "Verif.C63_to_dict",
    "Verif.C63_counterexample",
    "Verif.C63_persist_counterexample"
   ],
   "note": "Violated: after persist, a fill value that is not of the type of the elements (a Python number) makes compute raise ValueError (C63_counterexample, C63_compute_raises), and DelayedArray.persist replaces the array by a tuple (C63_persist_counterexample). Proved for every sequence of Dataset.persist and Dataset.rechunk: no exception (C63_accepted_partial), same values (C63_values_partial), to_dict (C63_to_dict), compute for fill values of the type of the elements (C63_compute_partial) or without persist (C63_compute_fresh), dask.persist and dask.compute of a variable (C63_dask)."
  },
  {
   "property": "C64",
   "status": "partial",
   "theorems": [
    "Verif.C64_variables_partial",
    "Verif.C64_to_dict_partial",
    "Verif.C64_empty_counterexample",
    "Verif.C64_iterator_iff",
    "Verif.C64_iterator",
    "Verif.C64_first_read",
    "Verif.C64_second_read_partial",
    "Verif.C64_second_read_counterexample",
    "Verif.C64_view_names",
    "Verif.C64_select_variables",
    "Verif.C64_text",
    "Verif.C64_text_counterexample",
    "Verif.C64_counterexample"
   ],
   "note": "Violated: an empty list selects everything in variables and to_dict (C64_empty_counterexample), a string is searched for substrings (C64_text_counterexample), an iterator gives the right answer only under the condition of C64_iterator_iff, and loses the variables of views and the immutable ones (C64_second_read_counterexample). Proved for lists that are not empty, and for every argument in the first read and in select_variables."
  },
  {
   "property": "C65",
   "status": "partial",
   "theorems": [
    "Verif.C65_zattrs_partial",
    "Verif.C65_zattrs_last",
    "Verif.C65_merge",
    "Verif.C65_zattrs_counterexample",
    "Verif.C65_load",
    "Verif.C65_stored",
    "Verif.C65_time_series",
    "Verif.C65_callback_partial",
    "Verif.C65_insert_partial",
    "Verif.C65_reopen",
    "Verif.C65_kept",
    "Verif.C65_added",
    "Verif.C65_view",
    "Verif.C65_counterexample",
    "Verif.C65_callback_counterexample",
    "Verif.C65_aligned_load",
    "Verif.C65_stale"
   ],
   "note": "Violated: an insertion that does not validate (the default) drops the attributes of the dataset (C65_counterexample), the callbacks get variables without attributes (C65_callback_counterexample, C65_callback_partial), an attribute named _ARRAY_DIMENSIONS is lost (C65_zattrs_counterexample), and an object made stale by another one raises KeyError (C65_stale). Proved: every load after every history has the attributes of the metadata (C65_load, C65_kept, C65_added, C65_reopen, C65_view), partitions hold none (C65_stored), validated insertions are loaded with their attributes (C65_insert_partial), of several attributes of one name the last is stored (C65_zattrs_last), merging two datasets keeps one attribute of each name (C65_merge), and fill_attrs never fails for a collection in step with its metadata (C65_aligned_load)."
  },
  {
   "property": "C66",
   "status": "partial",
   "theorems": [
    "Verif.C66_query_load",
    "Verif.C66_nothing",
    "Verif.C66_dropped",
    "Verif.C66_update_partial",
    "Verif.C66_indexed_partial",
    "Verif.C66_counterexample"
   ],
   "note": "Proved: with an index that describes the collection, the load of a query returns the records of the conditions, once and in order (C66_query_load), or None (C66_nothing), and an update makes the index describe the collection when it has no row of a partition that does not exist (C66_update_partial, C66_indexed_partial). Violated: the rows of a partition dropped from the collection are never removed, and the load of a query that selects one raises (C66_counterexample, C66_dropped)."
  },
  {
   "property": "C67",
   "status": "partial",
   "theorems": [
    "Verif.C67_reopen_partial",
    "Verif.C67_shared_partial",
    "Verif.C67_open",
    "Verif.C67_answer",
    "Verif.C67_cache",
    "Verif.C67_counterexample",
    "Verif.C67_key_in_dtype",
    "Verif.C67_fresh_counterexample",
    "Verif.C67_fresh_partial",
    "Verif.C67_metadata_counterexample"
   ],
   "note": "Proved over all sequences of calls on all objects, for a class whose columns are not keys of the partitioning and objects created with the same metadata: no update is lost (C67_shared_partial), the index that is opened is the one that was updated (C67_reopen_partial) and answers queries from the table of the file (C67_answer), open and table before and after the first written row (C67_open), objects that have not read the table see the updates of the others (C67_fresh_partial). Violated: a column of the class that is a key of the partitioning makes the opened index answer nothing (C67_counterexample, C67_key_in_dtype); an object that has read the table does not see later updates by others (C67_fresh_counterexample, C67_cache); the metadata of a second object are dropped (C67_metadata_counterexample)."
  },
  {
   "property": "C68",
   "status": "partial",
   "theorems": [
    "Verif.C68_time_line",
    "Verif.C68_content_partial",
    "Verif.C68_counterexample",
    "Verif.C68_date_order",
    "Verif.C68_date"
   ],
   "note": "Proved over all sequences of insertions: the loaded dates increase strictly, what is loaded was inserted and not replaced, what was not replaced and does not lie one tick after the end of a later insertion is loaded (C68_time_line); without such records, exactly what was not replaced (C68_content_partial); a Date of any resolution meets the hypotheses (C68_date, C68_date_order). Violated: the boundary error of C01 loses a record of the time line (C68_counterexample)."
  },
  {
   "property": "C69",
   "status": "proved",
   "theorems": [
    "Verif.C69_call",
    "Verif.C69_history",
    "Verif.C69_immutable",
    "Verif.C69_inserted",
    "Verif.C69_keyless_counterexample"
   ],
   "note": "The records of an insertion are covered under the hypotheses of C22 (sorted keys, axis with the name of its dimension). C69_keyless_counterexample: a dataset that lacks a variable of the partitioning is completed with fill values and overwrites the partition of the fill value; such insertions are not among the calls that leave a partition."
  },
  {
   "property": "C70",
   "status": "partial",
   "theorems": [
    "Verif.C70_pointwise_partial",
    "Verif.C70_broadcast",
    "Verif.C70_unknown",
    "Verif.C70_attribute",
    "Verif.C70_reads",
    "Verif.C70_hidden",
    "Verif.C70_hidden_function",
    "Verif.C70_counterexample",
    "Verif.C70_dims_counterexample"
   ],
   "note": "C70_full fails: with a variable named `e` (C70_counterexample, in general C70_hidden and C70_hidden_function), and for operands whose dimensions are not nested, without any reserved name (C70_dims_counterexample). C70_pointwise_partial has every other expression of the syntax. Division by zero in masked arrays, types, and further arguments of functions are not modelled."
  },
  {
   "property": "C71",
   "status": "proved",
   "theorems": [
    "Verif.C71_listing",
    "Verif.C71_call",
    "Verif.C71_history",
    "Verif.C71_refines",
    "Verif.C71_sequence",
    "Verif.C71_date",
    "Verif.C71_insert",
    "Verif.C71_inserted",
    "Verif.C71_dropped",
    "Verif.C71_frame"
   ],
   "note": ""
  },
  {
   "property": "C72",
   "status": "partial",
   "theorems": [
    "Verif.C72_history",
    "Verif.C72_shape",
    "Verif.C72_outcome",
    "Verif.C72_bad_key",
    "Verif.C72_assignable",
    "Verif.C72_assigned_partial",
    "Verif.C72_frame",
    "Verif.C72_shared",
    "Verif.C72_ufunc_partial",
    "Verif.C72_scalar",
    "Verif.C72_method",
    "Verif.C72_in_place",
    "Verif.C72_function_partial",
    "Verif.C72_nested",
    "Verif.C72_keyword",
    "Verif.C72_assign_counterexample",
    "Verif.C72_ufunc_counterexample",
    "Verif.C72_fill_counterexample",
    "Verif.C72_function_counterexample"
   ],
   "note": "Proved for all histories of constructions, rechunkings and assignments (C72_history, _shape, _outcome, _frame, _shared). False as stated (counterexamples proved): the mask of an assigned array is lost; a ufunc of a compressed array and a scalar of numpy raises TypeError, and uses one fill value for all; compressed arrays in a list or given by name make numpy functions recurse for ever, as does an in-place operator. The partial theorems state the cases that hold."
  },
  {
   "property": "C73",
   "status": "partial",
   "theorems": [
    "Verif.C73_to_xarray",
    "Verif.C73_coordinates",
    "Verif.C73_accepted",
    "Verif.C73_refused",
    "Verif.C73_from_xarray",
    "Verif.C73_round_trip_partial",
    "Verif.C73_missing",
    "Verif.C73_unmasked",
    "Verif.C73_stable",
    "Verif.C73_counterexample",
    "Verif.C73_counterexample_coordinates"
   ],
   "note": "False as stated (C73_counterexample): a missing element becomes NaN, which from_xarray does not hold as missing; (C73_counterexample_coordinates): coordinates that are not dimensions are lost. Proved: the image of every variable (C73_to_xarray), the coordinates, exactly when it fails (C73_accepted, C73_refused), from_xarray, the values that were not missing after the round trip (C73_round_trip_partial) and what becomes of the others (C73_missing), and that data, attributes and fill values are stable after the first conversion (C73_stable). xarray is a trusted reading; conventions other than fill values and coordinates are excluded by a hypothesis."
  },
  {
   "property": "C74",
   "status": "partial",
   "theorems": [
    "Verif.C74_split_partial",
    "Verif.C74_sorted_partial",
    "Verif.C74_refused",
    "Verif.C74_counterexample"
   ],
   "note": "False as stated (C74_counterexample): with more variables than dask reduces at once, every split raises (C74_refused), since the function given to the reduction drops the dimension. Proved up to that number (C74_split_partial, C74_sorted_partial). The reduction of dask is a trusted reading of its source."
  },
  {
   "property": "C75",
   "status": "partial",
   "theorems": [
    "Verif.C75_normalize",
    "Verif.C75_same",
    "Verif.C75_spelling_counterexample",
    "Verif.C75_relative",
    "Verif.C75_view",
    "Verif.C75_load_partial",
    "Verif.C75_refused",
    "Verif.C75_counterexample",
    "Verif.C75_root_counterexample",
    "Verif.C75_root_view",
    "Verif.C75_copy"
   ],
   "note": "False as stated: a view below a directory that contains the text `key=` of the first key can be created and listed but never loaded (C75_refused, C75_counterexample); at the root of a file system filters read wrong keys (C75_root_counterexample) and no view can be created (C75_root_view); local file systems of recent versions of fsspec are not normalised (C75_spelling_counterexample). Proved for all other directories (C75_normalize, C75_same, C75_relative, C75_view, C75_load_partial, C75_copy)."
  },
  {
   "property": "C76",
   "status": "partial",
   "theorems": [
    "Verif.C76_frame",
    "Verif.C76_rebinding",
    "Verif.C76_copies_partial",
    "Verif.C76_slices_partial",
    "Verif.C76_counterexample",
    "Verif.C76_select_counterexample",
    "Verif.C76_merge_counterexample",
    "Verif.C76_chunks_counterexample",
    "Verif.C76_array_counterexample",
    "Verif.C76_shared",
    "Verif.C76_select_vars",
    "Verif.C76_select_by_dims",
    "Verif.C76_merge",
    "Verif.C76_write",
    "Verif.C76_values_copy"
   ],
   "note": "False as stated for all methods: slices share memory (C76_counterexample), selections and merges share variables (C76_select_counterexample, C76_merge_counterexample), copy_properties shares the dictionary of chunks (C76_chunks_counterexample), Array keeps the array of the user (C76_array_counterexample). Proved: independence of what shares nothing (C76_frame, C76_rebinding), of copies (C76_copies_partial), of slices without writes in place (C76_slices_partial), the exact effect of a write through a slice (C76_write), that the values of a variable with a fill value or delayed are a copy (C76_values_copy), and that shared variables show the same for ever (C76_shared, C76_select_vars, C76_select_by_dims, C76_merge)."
  },
  {
   "property": "C77",
   "status": "partial",
   "theorems": [
    "Verif.C77_step",
    "Verif.C77_values_partial",
    "Verif.C77_untouched",
    "Verif.C77_counterexample",
    "Verif.C77_select_vars",
    "Verif.C77_select_by_dims",
    "Verif.C77_isel",
    "Verif.C77_delete",
    "Verif.C77_concat",
    "Verif.C77_set_for_insertion",
    "Verif.C77_compute",
    "Verif.C77_rechunk",
    "Verif.C77_pickle",
    "Verif.C77_dataset",
    "Verif.C77_merge",
    "Verif.C77_rename",
    "Verif.C77_drop_vars",
    "Verif.C77_add_variable",
    "Verif.C77_fill",
    "Verif.C77_assign",
    "Verif.C77_set_chunk",
    "Verif.C77_fill_attrs",
    "Verif.C77_copy_properties",
    "Verif.C77_values",
    "Verif.C77_others"
   ],
   "note": "False as stated for all programs: a dataset shows what is written into the array it was made of (C77_counterexample). Proved: each method gives the same on objects as on values (C77_select_vars ... C77_copy_properties, C77_values), the calls that can change another dataset (C77_others), one step (C77_step), programs without in-place changes (C77_untouched), programs whose in-place changes are to objects held once (C77_values_partial). Missing: programs that change shared objects; C76 says what they show."
  },
  {
   "property": "C78",
   "status": "partial",
   "theorems": [
    "Verif.C78_others",
    "Verif.C78_new",
    "Verif.C78_replaced_partial",
    "Verif.C78_before",
    "Verif.C78_after",
    "Verif.C78_dropped",
    "Verif.C78_updated",
    "Verif.C78_torn",
    "Verif.C78_counterexample",
    "Verif.C78_fill_counterexample",
    "Verif.C78_update_counterexample"
   ],
   "note": "False as stated: old values of a variable are read together with new values of another one (C78_counterexample, C78_update_counterexample), and the chunks removed meanwhile are read as fill values, without error (C78_fill_counterexample). Proved for every interleaving and all moments: partitions outside of the batch (C78_others), new partitions are complete or raise KeyError (C78_new), readers that end before the removal or start after the end (C78_before, C78_after), and otherwise each chunk is the old one, the new one or missing (C78_replaced_partial, C78_dropped, C78_updated). Metadata being rewritten is never taken for valid (C78_torn). The behaviour of zarr for missing chunks is a trusted reading."
  },
  {
   "property": "C79",
   "status": "partial",
   "theorems": [
    "Verif.C79_accepted",
    "Verif.C79_text",
    "Verif.C79_exact",
    "Verif.C79_again",
    "Verif.C79_torn",
    "Verif.C79_longer",
    "Verif.C79_open",
    "Verif.C79_view",
    "Verif.C79_unchanged",
    "Verif.C79_during",
    "Verif.C79_history_partial",
    "Verif.C79_broken",
    "Verif.C79_repaired",
    "Verif.C79_control",
    "Verif.C79_variables",
    "Verif.C79_missing",
    "Verif.C79_order",
    "Verif.C79_fields",
    "Verif.C79_pairs",
    "Verif.C79_counterexample",
    "Verif.C79_crash_counterexample"
   ],
   "note": "False as stated: add_variable with a value that json refuses (an attribute that is a date) raises TypeError after it has destroyed .zcollection; the collection cannot be opened any more until the same process drops the variable (C79_counterexample, C79_broken, C79_repaired). A process stopped during the write leaves a file that is refused (C79_crash_counterexample). Proved at the level of characters, for all values and all sequences of calls: round trip of every writable value (C79_text, C79_exact, C79_again), of the configurations (C79_open, C79_view, C79_unchanged), what opening refuses or keeps of other texts (C79_control, C79_variables, C79_missing), refusal of every incomplete or longer text (C79_torn, C79_longer, C79_during), and the whole statement when the values of the variables added can be written (C79_history_partial)."
  },
  {
   "property": "C80",
   "status": "partial",
   "theorems": [
    "Verif.C80_accepted_partial",
    "Verif.C80_needs",
    "Verif.C80_refused",
    "Verif.C80_never",
    "Verif.C80_leftover",
    "Verif.C80_stuck",
    "Verif.C80_counterexample"
   ],
   "note": "False as stated: insert selects the variables that are not split with the name of the axis, not with its dimension (C80_counterexample). When the two names differ, every insertion raises (C80_needs, C80_refused), no history of calls ever makes a partition (C80_never), the first attempt stores all the variables as not split (C80_leftover) and they cannot be removed any more (C80_stuck). Proved in full when the axis has the name of its dimension (C80_accepted_partial)."
  },
  {
   "property": "C81",
   "status": "partial",
   "theorems": [
    "Verif.C81_same_partial",
    "Verif.C81_hidden",
    "Verif.C81_add",
    "Verif.C81_add_blocks",
    "Verif.C81_shows_partial",
    "Verif.C81_counterexample"
   ],
   "note": "False as stated: a view ignores the directory .immutable of its reference, so that variables without the dimension of the partitioning are never loaded from a view nor given to callbacks (C81_counterexample, C81_hidden), and a variable with the dimensions of such a variable cannot be added: KeyError, after which loads raise until it is dropped (C81_add, C81_add_blocks). Proved for the split variables: equal variables in both loads (C81_same_partial), which both succeed (C81_shows_partial). Without indexer; with an indexer see C40 and C51."
  },
  {
   "property": "C82",
   "status": "partial",
   "theorems": [
    "Verif.C82_accepted",
    "Verif.C82_held_partial",
    "Verif.C82_counted",
    "Verif.C82_nested",
    "Verif.C82_refused",
    "Verif.C82_injective_partial",
    "Verif.C82_shape_lost",
    "Verif.C82_equal",
    "Verif.C82_counterexample"
   ],
   "note": "False as stated: a date to the nanosecond (and the other times that numpy gives as numbers) is read as an integer (C82_counterexample, C82_counted), and metadata with a value that is not a number are not equal to themselves after a reopening, so that insert(validate=True) refuses every dataset (C82_equal). Proved: what is accepted (C82_accepted), what is refused, with the file of configuration destroyed (C82_refused, C82_nested), everything else is read as given (C82_held_partial), different arrays give different attributes unless a dimension is empty (C82_injective_partial, C82_shape_lost). numpy's item and tolist are trusted readings of numpy."
  },
  {
   "property": "C83",
   "status": "partial",
   "theorems": [
    "Verif.C83_stored_partial",
    "Verif.C83_declares",
    "Verif.C83_written",
    "Verif.C83_unloadable",
    "Verif.C83_counterexample"
   ],
   "note": "False as stated: add_variable declares the variable in memory before it can fail, and the next call that writes the configuration declares it in the file although no partition holds it (C83_written, C83_counterexample); the opened view then cannot be loaded (C83_unloadable). Proved: over all histories, the variables declared in the file that no partition may hold are exactly among those whose addition failed before a write, without a reopening or a removal in between (C83_stored_partial). sync with filters that select new partitions is excluded, it creates partitions without variables (C38_counterexample_selected)."
  },
  {
   "property": "C84",
   "status": "partial",
   "theorems": [
    "Verif.C84_history_partial",
    "Verif.C84_applied",
    "Verif.C84_read_partial",
    "Verif.C84_counterexample"
   ],
   "note": "False as stated: a callback that returns nothing for the first selected partition, without the argument variables, makes update skip all the partitions while it reports success (C84_counterexample), and several dask arrays are evaluated after the first was written (C31_lazy_counterexample). Proved for callbacks that return arrays or at most one dask array, and at least one variable or with variables given: update composed with load, for all selections (C84_read_partial). The same is proved for any number of updates followed by a load, each callback being given the values left by the updates before it (C84_history_partial); for updates that apply a function to each value of a variable, the load shows the functions of the updates of each partition applied in turn (C84_applied)."
  },
  {
   "property": "C85",
   "status": "partial",
   "theorems": [
    "Verif.C85_history_partial",
    "Verif.C85_read_partial",
    "Verif.C85_counterexample"
   ],
   "note": "False as stated in the default mode when the callback returns several dask arrays: each is evaluated when it is written, after the first was overwritten (C85_counterexample); also with delayed datasets and an overlap (C57_counterexample_overlap). Proved for datasets that are not delayed, with any overlap, and without overlap for delayed ones when the callback returns arrays or at most one dask array: View.update composed with View.load (C85_read_partial). Assumes that a load of the selection is possible (the dimensions of the selected variables are covered, or only variables of the view are selected). The same is proved for any number of updates of the view followed by a load (C85_history_partial). The callbacks need only return well formed arrays when they are given such arrays."
  },
  {
   "property": "C86",
   "status": "proved",
   "theorems": [
    "Verif.C86_loads",
    "Verif.C86_values",
    "Verif.C86_stopped",
    "Verif.C86_view",
    "Verif.C86_view_values"
   ],
   "note": "Collection.update with any result composed with load (C86_loads, C86_values), any schedule of the actions of the workers (C86_stopped), View.update with any result composed with View.load (C86_view, C86_view_values). The write of one array is one action: an interruption in the middle of the chunks of an array is not modelled. For a view, a load of the selection is assumed possible before the update (the dimensions of the selected variables are covered, or only variables of the view are selected). Several dask arrays are outside the second part of the statement: they are computed after the first was written (C31_lazy_counterexample); delayed datasets with an overlap or with several dask arrays are outside the third part (C57_counterexample_overlap, C57_counterexample_lazy)."
  }
 ]
}
