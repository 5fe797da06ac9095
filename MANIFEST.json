{
 "claims": [
  {
   "property": "C01",
   "status": "proved",
   "theorems": [
    "NdSlice.sort_sorts",
    "NdSlice.sort_alloc_partial",
    "NdSlice.sort_alloc_short"
   ],
   "note": "All three flavours by the Style parameter; the allocator is assumed to have memory (sort_alloc_partial: otherwise)."
  },
  {
   "property": "C02",
   "status": "proved",
   "theorems": [
    "NdSlice.sort_safe",
    "NdSlice.sort_sorts"
   ],
   "note": ""
  },
  {
   "property": "C03",
   "status": "proved",
   "theorems": [
    "NdSlice.sort_sorts",
    "NdSlice.StableSortOf.unique"
   ],
   "note": "StableArr: for every x the elements equivalent to x form the same subsequence before and after."
  },
  {
   "property": "C04",
   "status": "proved",
   "theorems": [
    "NdSlice.sort_safe",
    "NdSlice.sort_returns"
   ],
   "note": ""
  },
  {
   "property": "C05",
   "status": "proved",
   "theorems": [
    "NdSlice.sort_safe"
   ],
   "note": "The panic branch of Ends."
  },
  {
   "property": "C06",
   "status": "proved",
   "theorems": [
    "NdSlice.sort_unstable_sorts"
   ],
   "note": "All three flavours (sort_unstable, _by, _by_key) by the Style parameter."
  },
  {
   "property": "C07",
   "status": "proved",
   "theorems": [
    "NdSlice.sort_unstable_safe",
    "NdSlice.sort_unstable_returns"
   ],
   "note": "Any stateful oracle; debug and release (cfg.dbg)."
  },
  {
   "property": "C08",
   "status": "proved",
   "theorems": [
    "NdSlice.sort_unstable_safe"
   ],
   "note": "The panic branch of Ends."
  },
  {
   "property": "C09",
   "status": "proved",
   "theorems": [
    "NdSlice.sort_safe",
    "NdSlice.sort_unstable_safe",
    "NdSlice.par_sort_unstable_safe",
    "NdSlice.select_nth_safe",
    "NdSlice.select_many_safe",
    "NdSlice.par_select_many_safe",
    "NdSlice.par_sort_safe",
    "NdSlice.dedup_safe",
    "NdSlice.reverse_correct",
    "NdSlice.sort_by_cached_key_calls",
    "NdSlice.par_sort_by_cached_key_calls"
   ],
   "note": "Each states that memory outside of the view (and of the fresh buffer) is unchanged, also on panic."
  },
  {
   "property": "C10",
   "status": "proved",
   "theorems": [
    "NdSlice.select_nth_selects",
    "NdSlice.select_nth_safe",
    "NdSlice.SelectedAt.order_statistic"
   ],
   "note": "Release builds: returns. All builds: correct if it returns; debug builds may hit the failing debug_assert of C47."
  },
  {
   "property": "C100",
   "status": "proved",
   "theorems": [
    "NdSlice.select_then_sort_at_once",
    "NdSlice.select_then_sort_at_once_safe",
    "NdSlice.select_many_then_sort_at_once",
    "NdSlice.select_many_then_sort_at_once_safe"
   ],
   "note": "The calls share the user code. That a debug build may fail an assertion is C47."
  },
  {
   "property": "C101",
   "status": "proved",
   "theorems": [
    "NdSlice.rows_then_columns"
   ],
   "note": "The calls of one step share the user code; the buffers are assumed to lie apart, as an allocator gives them."
  },
  {
   "property": "C11",
   "status": "proved",
   "theorems": [
    "NdSlice.select_nth_safe"
   ],
   "note": "Any oracle, any panic point."
  },
  {
   "property": "C12",
   "status": "proved",
   "theorems": [
    "NdSlice.select_nth_bad_index",
    "NdSlice.select_nth_panics_iff"
   ],
   "note": ""
  },
  {
   "property": "C13",
   "status": "proved",
   "theorems": [
    "NdSlice.select_many_selects",
    "NdSlice.select_many_safe"
   ],
   "note": "Release builds: returns. All builds: correct if it returns (C47)."
  },
  {
   "property": "C14",
   "status": "proved",
   "theorems": [
    "NdSlice.select_many_panics_iff",
    "NdSlice.select_many_bad_panics",
    "NdSlice.select_many_safe"
   ],
   "note": "The iff is for release builds; in debug builds bad indices panic too, but good ones may hit C47."
  },
  {
   "property": "C15",
   "status": "proved",
   "theorems": [
    "NdSlice.sort_by_cached_key_sorts"
   ],
   "note": "For every sort of the vector of keys and indices with the documented behaviour of std sort_unstable (rayon par_sort_unstable): hypothesis SortsPairs, met by the example."
  },
  {
   "property": "C16",
   "status": "proved",
   "theorems": [
    "NdSlice.sort_by_cached_key_calls"
   ],
   "note": "For every sort of the vector of keys and indices with the documented behaviour of std sort_unstable (rayon par_sort_unstable): hypothesis SortsPairs, met by the example."
  },
  {
   "property": "C17",
   "status": "proved",
   "theorems": [
    "NdSlice.cached_index_fits",
    "NdSlice.cached_index_type"
   ],
   "note": ""
  },
  {
   "property": "C18",
   "status": "proved",
   "theorems": [
    "NdSlice.dedup_correct"
   ],
   "note": ""
  },
  {
   "property": "C19",
   "status": "proved",
   "theorems": [
    "NdSlice.dedup_sorted"
   ],
   "note": ""
  },
  {
   "property": "C20",
   "status": "proved",
   "theorems": [
    "NdSlice.dedup_safe"
   ],
   "note": "The user code may also mutate the two elements it is given (NoMutate is a hypothesis only of the permutation claim)."
  },
  {
   "property": "C21",
   "status": "proved",
   "theorems": [
    "NdSlice.reverse_correct"
   ],
   "note": ""
  },
  {
   "property": "C22",
   "status": "proved",
   "theorems": [
    "NdSlice.is_sorted_safe",
    "NdSlice.is_sorted_correct"
   ],
   "note": ""
  },
  {
   "property": "C23",
   "status": "proved",
   "theorems": [
    "NdSlice.binary_search_pure",
    "NdSlice.binary_search_correct",
    "NdSlice.binary_search_sorted"
   ],
   "note": ""
  },
  {
   "property": "C24",
   "status": "proved",
   "theorems": [
    "NdSlice.binary_search_safe"
   ],
   "note": ""
  },
  {
   "property": "C25",
   "status": "proved",
   "theorems": [
    "NdSlice.partition_point_safe",
    "NdSlice.partition_point_correct"
   ],
   "note": ""
  },
  {
   "property": "C26",
   "status": "proved",
   "theorems": [
    "NdSlice.contains_safe",
    "NdSlice.contains_correct"
   ],
   "note": ""
  },
  {
   "property": "C27",
   "status": "proved",
   "theorems": [
    "NdSlice.par_sort_sorts",
    "NdSlice.par_sort_eq_sort"
   ],
   "note": "Every schedule; all three flavours."
  },
  {
   "property": "C28",
   "status": "proved",
   "theorems": [
    "NdSlice.par_sort_safe"
   ],
   "note": "Every schedule, any oracle."
  },
  {
   "property": "C29",
   "status": "proved",
   "theorems": [
    "NdSlice.par_sort_unstable_sorts",
    "NdSlice.par_sort_unstable_safe"
   ],
   "note": ""
  },
  {
   "property": "C30",
   "status": "proved",
   "theorems": [
    "NdSlice.par_select_many_selects",
    "NdSlice.par_select_many_safe"
   ],
   "note": "Release builds: returns; all builds: correct if it returns (C47)."
  },
  {
   "property": "C31",
   "status": "proved",
   "theorems": [
    "NdSlice.par_sort_unstable_race_free",
    "NdSlice.par_select_many_race_free",
    "NdSlice.par_sort_race_free",
    "NdSlice.par_sort_by_cached_key_race_free"
   ],
   "note": ""
  },
  {
   "property": "C32",
   "status": "proved",
   "theorems": [
    "NdSlice.par_sort_unstable_deterministic",
    "NdSlice.par_select_many_deterministic",
    "NdSlice.par_sort_deterministic",
    "NdSlice.par_sort_two_schedules"
   ],
   "note": "par_sort*: also independent of which tasks start late, for environments with any state."
  },
  {
   "property": "C33",
   "status": "proved",
   "theorems": [
    "NdSlice.par_sort_unstable_ends",
    "NdSlice.par_select_many_ends",
    "NdSlice.par_sort_ends",
    "NdSlice.par_sort_by_cached_key_ends"
   ],
   "note": ""
  },
  {
   "property": "C34",
   "status": "proved",
   "theorems": [
    "NdSlice.sort_safe",
    "NdSlice.par_sort_safe"
   ],
   "note": "Any access to the buffer beyond len/2 (par: len) elements would be undefined behaviour in the model, and no other memory changes."
  },
  {
   "property": "C35",
   "status": "proved",
   "theorems": [
    "NdSlice.sort_already_sorted",
    "NdSlice.sort_unstable_already_sorted",
    "NdSlice.par_sort_unstable_already_sorted",
    "NdSlice.par_sort_already_sorted"
   ],
   "note": "par_sort*: without the lengths 2000 k + 1 above 2000, whose last chunk is merged. The pivot choice asks nothing below 8 elements; the insertion sort used up to 20 elements asks len-1."
  },
  {
   "property": "C36",
   "status": "proved",
   "theorems": [
    "NdSlice.sort_unstable_trivial",
    "NdSlice.sort_trivial",
    "NdSlice.par_sort_unstable_trivial",
    "NdSlice.par_sort_trivial",
    "NdSlice.sort_by_cached_key_trivial",
    "NdSlice.par_sort_by_cached_key_trivial",
    "NdSlice.is_sorted_trivial",
    "NdSlice.partition_dedup_trivial"
   ],
   "note": "Nothing happens at all, so no calls; parallel operations included."
  },
  {
   "property": "C37",
   "status": "proved",
   "theorems": [
    "NdSlice.sort_unstable_zst",
    "NdSlice.sort_zst",
    "NdSlice.par_sort_unstable_zst",
    "NdSlice.par_sort_zst",
    "NdSlice.sort_by_cached_key_zst",
    "NdSlice.select_nth_zst",
    "NdSlice.select_many_zst",
    "NdSlice.select_many_safe",
    "NdSlice.par_select_many_safe",
    "NdSlice.par_sort_by_cached_key_calls",
    "NdSlice.dedup_zst"
   ],
   "note": "With Subsingleton the general theorems on the parallel methods say that the array is unchanged."
  },
  {
   "property": "C38",
   "status": "proved",
   "theorems": [
    "NdSlice.quick_sort_depth"
   ],
   "note": "With floor(log2(len))+1 nested calls, one less than claimed."
  },
  {
   "property": "C39",
   "status": "proved",
   "theorems": [
    "NdSlice.run_stack_invariant"
   ],
   "note": "Instrumented with watchStack, which turns a violation into undefined behaviour."
  },
  {
   "property": "C40",
   "status": "partial",
   "theorems": [
    "NdSlice.run_stack_memory_partial",
    "NdSlice.run_stack_alloc_failure",
    "NdSlice.sort_alloc_failure_ub"
   ],
   "note": "False if an allocation for growing fails: run_stack_alloc_failure, within sort*: sort_alloc_failure_ub. Missing: nothing else."
  },
  {
   "property": "C41",
   "status": "partial",
   "theorems": [
    "NdSlice.sort_comparisons",
    "NdSlice.par_sort_comparisons",
    "NdSlice.sort_unstable_comparisons",
    "NdSlice.sort_unstable_comparisons_any",
    "NdSlice.par_sort_unstable_comparisons_any",
    "NdSlice.select_nth_superpolynomial",
    "NdSlice.select_nth_linear",
    "NdSlice.par_sort_unstable_quadratic",
    "NdSlice.sort_unstable_inconsistent_quadratic"
   ],
   "note": "False as stated: selection is not linear (select_nth_superpolynomial). Stable sorts, sequential and parallel: proved for every answer sequence (sort_comparisons, par_sort_comparisons). Unstable sort: proved for consistent comparators; false for inconsistent ones, quadratic (sort_unstable_inconsistent_quadratic). par_sort_unstable: false, quadratic (par_sort_unstable_quadratic). Selection: linear if no more than a fixed number of elements are equal (select_nth_linear)."
  },
  {
   "property": "C42",
   "status": "proved",
   "theorems": [
    "NdSlice.sort_then_search",
    "NdSlice.sort_unstable_then_search"
   ],
   "note": ""
  },
  {
   "property": "C43",
   "status": "proved",
   "theorems": [
    "NdSlice.indices_then_select_many"
   ],
   "note": "Release builds (debug: C47)."
  },
  {
   "property": "C44",
   "status": "proved",
   "theorems": [
    "NdSlice.sort_variants",
    "NdSlice.sort_unstable_variants",
    "NdSlice.select_nth_variants",
    "NdSlice.select_many_variants",
    "NdSlice.par_sort_variants",
    "NdSlice.par_sort_unstable_variants",
    "NdSlice.par_select_many_variants",
    "NdSlice.par_sort_unstable_variants_schedules",
    "NdSlice.par_select_many_variants_schedules",
    "NdSlice.par_sort_variants_schedules",
    "NdSlice.is_sorted_variants",
    "NdSlice.binary_search_variants",
    "NdSlice.dedup_variants",
    "NdSlice.sameOrder_viaKey",
    "NdSlice.sameOrder_viaOrd"
   ],
   "note": "Also for stateful, inconsistent and panicking user code. Parallel methods: any schedules, with pure user code."
  },
  {
   "property": "C45",
   "status": "proved",
   "theorems": [
    "NdSlice.partition_partitions",
    "NdSlice.partition_safe",
    "NdSlice.partition_equal_partitions",
    "NdSlice.partition_equal_safe",
    "NdSlice.partition_in_blocks_partitions",
    "NdSlice.partition_in_blocks_safe"
   ],
   "note": ""
  },
  {
   "property": "C46",
   "status": "proved",
   "theorems": [
    "NdSlice.sort_unstable_layout",
    "NdSlice.select_nth_layout",
    "NdSlice.select_many_layout",
    "NdSlice.par_sort_unstable_layout",
    "NdSlice.par_sort_layout_schedules"
   ],
   "note": "Also for stateful user code; par_sort_unstable* and par_sort* with pure user code on every schedule."
  },
  {
   "property": "C47",
   "status": "partial",
   "theorems": [
    "NdSlice.select_nth_no_panic_partial",
    "NdSlice.select_nth_short_no_panic_partial",
    "NdSlice.select_many_short_no_panic_partial",
    "NdSlice.par_select_many_short_no_debug_partial",
    "NdSlice.select_nth_few_no_panic_partial",
    "NdSlice.select_many_few_no_panic_partial",
    "NdSlice.par_select_many_few_no_debug_partial",
    "NdSlice.select_nth_debug_assert_fails_good",
    "NdSlice.select_nth_debug_assert_fails",
    "NdSlice.select_nth_debug_assert_fails_short"
   ],
   "note": "False in debug builds: select_nth_debug_assert_fails is a concrete 49 element witness with the order of numbers, select_nth_debug_assert_fails_short one of 28 elements with an inconsistent comparator. The partial theorems cover release builds (all lengths) and all builds up to 27 elements, which is the best possible bound for arbitrary comparators, and up to 35 elements for consistent ones; select_nth_debug_assert_fails_good is a witness of 40 elements with the order of numbers."
  },
  {
   "property": "C48",
   "status": "proved",
   "theorems": [
    "NdSlice.par_sort_by_cached_key_sorts",
    "NdSlice.par_sort_by_cached_key_calls"
   ],
   "note": "For every sort of the vector of keys and indices with the documented behaviour of std sort_unstable (rayon par_sort_unstable): hypothesis SortsPairs, met by the example."
  },
  {
   "property": "C49",
   "status": "proved",
   "theorems": [
    "NdSlice.sort_unstable_natural",
    "NdSlice.select_nth_natural",
    "NdSlice.select_many_natural",
    "NdSlice.par_sort_unstable_natural",
    "NdSlice.par_select_many_natural",
    "NdSlice.sort_natural",
    "NdSlice.par_sort_natural"
   ],
   "note": "Parallel operations with tasks run one after the other; the buffers of the stable sorts start with corresponding contents."
  },
  {
   "property": "C50",
   "status": "proved",
   "theorems": [
    "NdSlice.sort_comparisons"
   ],
   "note": "Counts the questions asked of user code; one comparison is st.calls questions (3 by key)."
  },
  {
   "property": "C51",
   "status": "proved",
   "theorems": [
    "NdSlice.sort_unstable_comparisons"
   ],
   "note": "Sequential method; consistent comparators."
  },
  {
   "property": "C52",
   "status": "proved",
   "theorems": [
    "NdSlice.select_nth_superpolynomial",
    "NdSlice.select_nth_no_polynomial",
    "NdSlice.select_nth_bytes_superpolynomial"
   ],
   "note": "Release builds; for numbers less than 240 in all three flavours."
  },
  {
   "property": "C53",
   "status": "proved",
   "theorems": [
    "NdSlice.select_nth_linear",
    "NdSlice.select_many_linear",
    "NdSlice.par_select_many_linear"
   ],
   "note": "Consistent comparators. par_select_many_linear holds at every moment of every schedule."
  },
  {
   "property": "C54",
   "status": "proved",
   "theorems": [
    "NdSlice.par_sort_unstable_quadratic",
    "NdSlice.par_sort_unstable_not_n_log_n",
    "NdSlice.par_sort_unstable_numbers_quadratic"
   ],
   "note": "For numbers in all three flavours; elements of non-zero size; the run in which the left task goes first."
  },
  {
   "property": "C55",
   "status": "proved",
   "theorems": [
    "NdSlice.sort_reads",
    "NdSlice.par_sort_reads",
    "NdSlice.sort_unstable_reads",
    "NdSlice.par_sort_unstable_reads",
    "NdSlice.select_nth_reads",
    "NdSlice.select_many_reads",
    "NdSlice.par_select_many_reads",
    "NdSlice.is_sorted_reads",
    "NdSlice.binary_search_reads",
    "NdSlice.partition_point_reads",
    "NdSlice.contains_reads",
    "NdSlice.partition_dedup_reads",
    "NdSlice.partition_dedup_by_reads",
    "NdSlice.sort_by_cached_key_reads",
    "NdSlice.par_sort_by_cached_key_reads"
   ],
   "note": "For the cached key sorts the sort of the vector of keys is a parameter, assumed to do nothing but compare keys (LtOnly)."
  },
  {
   "property": "C56",
   "status": "proved",
   "theorems": [
    "NdSlice.par_sort_comparisons"
   ],
   "note": "Elements of any size; the bound holds at every moment of every schedule."
  },
  {
   "property": "C57",
   "status": "proved",
   "theorems": [
    "NdSlice.sort_unstable_comparisons_any",
    "NdSlice.par_sort_unstable_comparisons_any"
   ],
   "note": "Any user code."
  },
  {
   "property": "C58",
   "status": "proved",
   "theorems": [
    "NdSlice.select_nth_comparisons_any",
    "NdSlice.select_many_comparisons_any",
    "NdSlice.par_select_many_comparisons_any"
   ],
   "note": "Any user code."
  },
  {
   "property": "C59",
   "status": "proved",
   "theorems": [
    "NdSlice.sort_unstable_inconsistent_quadratic",
    "NdSlice.sort_unstable_pure_not_n_log_n"
   ],
   "note": "All three styles; and no bound in O(n log n) for pure comparators."
  },
  {
   "property": "C60",
   "status": "proved",
   "theorems": [
    "NdSlice.sort_descending",
    "NdSlice.sort_unstable_descending",
    "NdSlice.par_sort_unstable_descending",
    "NdSlice.par_sort_descending"
   ],
   "note": "Elements of non-zero size; par_sort*: without the lengths 2000 k + 1 above 2000; shorter arrays take other paths."
  },
  {
   "property": "C61",
   "status": "proved",
   "theorems": [
    "NdSlice.sort_computes",
    "NdSlice.par_sort_computes",
    "NdSlice.sort_by_cached_key_computes",
    "NdSlice.par_sort_by_cached_key_computes",
    "NdSlice.sort_unstable_computes",
    "NdSlice.par_sort_unstable_computes",
    "NdSlice.select_nth_computes",
    "NdSlice.select_many_computes",
    "NdSlice.par_select_many_computes"
   ],
   "note": "The cached key sorts for every documented sort of the index pairs; selections in release builds (see C47)."
  },
  {
   "property": "C62",
   "status": "proved",
   "theorems": [
    "NdSlice.sort_passes_on",
    "NdSlice.sort_unstable_passes_on",
    "NdSlice.select_nth_passes_on",
    "NdSlice.select_many_passes_on",
    "NdSlice.sort_by_cached_key_passes_on",
    "NdSlice.is_sorted_passes_on",
    "NdSlice.binary_search_passes_on",
    "NdSlice.partition_point_passes_on",
    "NdSlice.contains_passes_on",
    "NdSlice.dedup_passes_on",
    "NdSlice.par_sort_passes_on",
    "NdSlice.par_sort_unstable_passes_on",
    "NdSlice.par_select_many_passes_on",
    "NdSlice.par_sort_by_cached_key_passes_on"
   ],
   "note": "The cached key sorts if the sort of the index pairs does the same."
  },
  {
   "property": "C63",
   "status": "proved",
   "theorems": [
    "NdSlice.sort_refs",
    "NdSlice.sort_refs_sorts",
    "NdSlice.sort_unstable_refs",
    "NdSlice.sort_unstable_refs_sorts",
    "NdSlice.select_nth_refs",
    "NdSlice.select_nth_refs_selects",
    "NdSlice.select_many_refs",
    "NdSlice.select_many_refs_selects"
   ],
   "note": "Sequential methods; a second model with references to places (Verif/Model/Refs.lean). The three flavours are one: a call of is_less is one call of user code about two references."
  },
  {
   "property": "C64",
   "status": "proved",
   "theorems": [
    "NdSlice.par_sort_apart",
    "NdSlice.par_sort_unstable_apart",
    "NdSlice.par_select_many_apart",
    "NdSlice.par_sort_by_cached_key_apart"
   ],
   "note": "In terms of labelled steps (Verif/Core/Apart.lean), which are those of the semantics."
  },
  {
   "property": "C65",
   "status": "proved",
   "theorems": [
    "NdSlice.select_many_extend",
    "NdSlice.select_many_extend_passes_on",
    "NdSlice.select_many_extend_returns"
   ],
   "note": "A second model of the recursion in which the collection is user code (Verif/Model/Extend.lean)."
  },
  {
   "property": "C66",
   "status": "proved",
   "theorems": [
    "NdSlice.select_many_depth",
    "NdSlice.select_many_extend_depth",
    "NdSlice.par_select_many_depth",
    "NdSlice.median_of_medians_depth",
    "NdSlice.par_merge_depth",
    "NdSlice.par_sort_depth"
   ],
   "note": "Equalities of programs: with the smaller bound on nested calls the program is the same; that it never runs out of its bound is part of C01 to C12. par_sort_depth is an equality of runs."
  },
  {
   "property": "C67",
   "status": "proved",
   "theorems": [
    "NdSlice.par_sort_unstable_deep",
    "NdSlice.par_sort_unstable_numbers_deep"
   ],
   "note": "For numbers in all three flavours."
  },
  {
   "property": "C68",
   "status": "proved",
   "theorems": [
    "NdSlice.run_stepsN",
    "NdSlice.sort_steps",
    "NdSlice.sort_unstable_steps",
    "NdSlice.par_sort_unstable_steps",
    "NdSlice.par_sort_steps",
    "NdSlice.select_nth_steps",
    "NdSlice.select_many_steps",
    "NdSlice.par_select_many_steps",
    "NdSlice.reverse_steps",
    "NdSlice.is_sorted_steps",
    "NdSlice.binary_search_steps",
    "NdSlice.partition_point_steps",
    "NdSlice.contains_steps",
    "NdSlice.dedup_steps",
    "NdSlice.sort_by_cached_key_steps",
    "NdSlice.sort_time",
    "NdSlice.par_sort_time",
    "NdSlice.sort_unstable_time",
    "NdSlice.sort_unstable_time_any",
    "NdSlice.par_sort_unstable_time_any",
    "NdSlice.select_time"
   ],
   "note": "Steps are the steps of the semantics; loop control, arithmetic, the run stack and the lists of indices are not counted. par_sort_by_cached_key is left out: its model chooses the order of the pairs by many choices of the environment."
  },
  {
   "property": "C69",
   "status": "proved",
   "theorems": [
    "NdSlice.sort_sorts_told",
    "NdSlice.par_sort_sorts_told",
    "NdSlice.sort_unstable_sorts_told",
    "NdSlice.par_sort_unstable_sorts_told",
    "NdSlice.select_nth_selects_told",
    "NdSlice.select_many_selects_told",
    "NdSlice.par_select_many_selects_told",
    "NdSlice.sort_unstable_comparisons_told",
    "NdSlice.select_linear_told"
   ],
   "note": "Consistent.of_agrees shows that comparators which always agree with an order are a special case."
  },
  {
   "property": "C70",
   "status": "proved",
   "theorems": [
    "NdSlice.sort_unstable_few_values",
    "NdSlice.par_sort_unstable_few_values",
    "NdSlice.sort_unstable_few_values_time",
    "NdSlice.sorting_beats_selecting"
   ],
   "note": ""
  },
  {
   "property": "C71",
   "status": "proved",
   "theorems": [
    "NdSlice.par_sort_critical_path",
    "NdSlice.par_sort_timed",
    "NdSlice.par_sort_short_sequential"
   ],
   "note": "Only calls of user code take time; copies, splitting tasks and stealing them do not."
  },
  {
   "property": "C72",
   "status": "proved",
   "theorems": [
    "NdSlice.par_sort_processors",
    "NdSlice.par_sort_processors_end",
    "NdSlice.par_sort_processors_steps"
   ],
   "note": "A call of user code takes one unit of time, everything else none."
  },
  {
   "property": "C73",
   "status": "proved",
   "theorems": [
    "NdSlice.sort_short_any_alloc",
    "NdSlice.sort_short_in_place",
    "NdSlice.sort_short_safe",
    "NdSlice.par_sort_short_in_place",
    "NdSlice.par_sort_short_safe",
    "NdSlice.sort_safe",
    "NdSlice.par_sort_fills_buffer",
    "NdSlice.par_sort_overwrites_buffer",
    "NdSlice.par_sort_single_fills_buffer",
    "NdSlice.par_sort_sorted_single_copied"
   ],
   "note": "sort_safe covers the len/2 elements of longer arrays."
  },
  {
   "property": "C74",
   "status": "proved",
   "theorems": [
    "NdSlice.sort_adaptive",
    "NdSlice.sort_adaptive_time",
    "NdSlice.sort_nearly_sorted",
    "NdSlice.par_sort_adaptive",
    "NdSlice.par_sort_nearly_sorted"
   ],
   "note": "At every moment of the sort. The allocator succeeds, as in C01."
  },
  {
   "property": "C75",
   "status": "proved",
   "theorems": [
    "NdSlice.par_sort_refs",
    "NdSlice.par_sort_refs_sorts",
    "NdSlice.par_sort_unstable_refs",
    "NdSlice.par_sort_unstable_refs_sorts",
    "NdSlice.par_select_many_refs",
    "NdSlice.par_select_many_refs_selects"
   ],
   "note": "The states are those of a serial execution of the calls which were made; nothing is said about which one."
  },
  {
   "property": "C76",
   "status": "proved",
   "theorems": [
    "NdSlice.sort_by_cached_key_changes",
    "NdSlice.sort_by_cached_key_changes_ends",
    "NdSlice.par_sort_by_cached_key_changes",
    "NdSlice.par_sort_by_cached_key_changes_ends"
   ],
   "note": "The sort of the vector of keys is a parameter with its documented behaviour, as in C15."
  },
  {
   "property": "C77",
   "status": "proved",
   "theorems": [
    "NdSlice.select_nth_last",
    "NdSlice.select_nth_first"
   ],
   "note": ""
  },
  {
   "property": "C78",
   "status": "proved",
   "theorems": [
    "NdSlice.sort_alloc_partial",
    "NdSlice.sort_alloc_short",
    "NdSlice.sort_alloc_safe_partial",
    "NdSlice.sort_alloc_panics",
    "NdSlice.sort_alloc_failure_ub"
   ],
   "note": "sort_alloc_partial and sort_alloc_safe_partial are partial with respect to C01 and C04 only: their hypothesis is the exact bound stated in C78."
  },
  {
   "property": "C79",
   "status": "proved",
   "theorems": [
    "NdSlice.par_sort_unstable_critical_path",
    "NdSlice.par_select_many_critical_path",
    "NdSlice.sort_unstable_at_least",
    "NdSlice.select_nth_at_least",
    "NdSlice.select_many_at_least"
   ],
   "note": "A comparison is one call, or three for the _by_key methods (two keys and their comparison)."
  },
  {
   "property": "C80",
   "status": "proved",
   "theorems": [
    "NdSlice.sort_copies",
    "NdSlice.sort_unstable_copies",
    "NdSlice.select_nth_copies",
    "NdSlice.select_many_copies",
    "NdSlice.par_sort_copies",
    "NdSlice.par_sort_unstable_copies",
    "NdSlice.par_select_many_copies",
    "NdSlice.overlap_ub",
    "NdSlice.overlap_bad"
   ],
   "note": "In the model on places (C63, C75), where each copy is preceded by a check that is undefined behaviour if both cells are the same."
  },
  {
   "property": "C81",
   "status": "proved",
   "theorems": [
    "NdSlice.partition_dedup_pairs",
    "NdSlice.partition_dedup_exclusive",
    "NdSlice.dedup_exclusive"
   ],
   "note": ""
  },
  {
   "property": "C82",
   "status": "proved",
   "theorems": [
    "NdSlice.sort_at_least",
    "NdSlice.par_sort_at_least",
    "NdSlice.sort_at_least_attained"
   ],
   "note": "A comparison is one call, or three for the _by_key methods (two keys and their comparison)."
  },
  {
   "property": "C83",
   "status": "proved",
   "theorems": [
    "NdSlice.sort_entropy",
    "NdSlice.sort_unstable_entropy",
    "NdSlice.par_sort_entropy",
    "NdSlice.par_sort_unstable_entropy",
    "NdSlice.entropy_log",
    "NdSlice.par_sort_entropy_schedules",
    "NdSlice.par_sort_unstable_entropy_schedules"
   ],
   "note": "For the _by_key methods the key of an element is the element itself and only comparisons of keys are counted."
  },
  {
   "property": "C84",
   "status": "proved",
   "theorems": [
    "NdSlice.partition_point_hardest",
    "NdSlice.binary_search_hardest",
    "NdSlice.contains_asks",
    "NdSlice.is_sorted_asks"
   ],
   "note": "For binary_search_by_key the key of an element is the element itself; comparisons are counted without the questions for keys, which are as many at most."
  },
  {
   "property": "C85",
   "status": "proved",
   "theorems": [
    "NdSlice.par_sort_unstable_asks",
    "NdSlice.par_select_many_asks",
    "NdSlice.par_sort_asks",
    "NdSlice.par_sort_entropy_schedules",
    "NdSlice.par_sort_unstable_entropy_schedules"
   ],
   "note": "For par_sort* only schedules that return: if a task panics then tasks that have not started are never run."
  },
  {
   "property": "C86",
   "status": "proved",
   "theorems": [
    "NdSlice.par_sort_panic_schedules",
    "NdSlice.par_sort_by_cached_key_panic_schedules"
   ],
   "note": "Existential: the runs of the two schedules are computed by the kernel."
  },
  {
   "property": "C87",
   "status": "proved",
   "theorems": [
    "NdSlice.par_sort_half_buffer",
    "NdSlice.par_sort_half_buffer_sorts",
    "NdSlice.par_sort_half_buffer_safe"
   ],
   "note": ""
  },
  {
   "property": "C88",
   "status": "proved",
   "theorems": [
    "NdSlice.sort_by_cached_key_placing_sorts",
    "NdSlice.sort_by_cached_key_placing",
    "NdSlice.par_sort_by_cached_key_placing_sorts",
    "NdSlice.par_sort_by_cached_key_placing",
    "NdSlice.sort_by_cached_key_placing_tight"
   ],
   "note": "The programs with a counter get stuck at one iteration more than allowed; placeWithin_eq shows them to place as placeAll does."
  },
  {
   "property": "C89",
   "status": "proved",
   "theorems": [
    "NdSlice.select_then_sort"
   ],
   "note": "In debug builds select_nth_unstable may fail its own assertion, see C47."
  },
  {
   "property": "C90",
   "status": "proved",
   "theorems": [
    "NdSlice.sort_minor_then_major",
    "NdSlice.sort_unstable_minor_then_major",
    "NdSlice.par_sort_minor_then_major",
    "NdSlice.sort_by_cached_key_minor_then_major",
    "NdSlice.par_sort_by_cached_key_minor_then_major"
   ],
   "note": ""
  },
  {
   "property": "C91",
   "status": "proved",
   "theorems": [
    "NdSlice.par_sort_by_cached_key_key_calls",
    "NdSlice.par_sort_by_cached_key_comparisons_schedules"
   ],
   "note": "The sort of the vector is a parameter; the witness uses an insertion sort."
  },
  {
   "property": "C92",
   "status": "proved",
   "theorems": [
    "NdSlice.is_sorted_iff_sort_fixes",
    "NdSlice.is_sorted_iff_par_sort_fixes",
    "NdSlice.is_sorted_iff_sort_unstable_fixes",
    "NdSlice.is_sorted_iff_par_sort_unstable_fixes",
    "NdSlice.is_sorted_iff_sort_by_cached_key_fixes",
    "NdSlice.is_sorted_iff_par_sort_by_cached_key_fixes"
   ],
   "note": ""
  },
  {
   "property": "C93",
   "status": "proved",
   "theorems": [
    "NdSlice.sort_inverted",
    "NdSlice.sort_inverted_eq",
    "NdSlice.par_sort_inverted",
    "NdSlice.sort_by_cached_key_inverted",
    "NdSlice.par_sort_by_cached_key_inverted",
    "NdSlice.sort_unstable_inverted",
    "NdSlice.par_sort_unstable_inverted",
    "NdSlice.select_nth_inverted",
    "NdSlice.reverse_sort_reverse",
    "NdSlice.reverse_inverted"
   ],
   "note": ""
  },
  {
   "property": "C94",
   "status": "proved",
   "theorems": [
    "NdSlice.sort_then_dedup_then_search",
    "NdSlice.par_sort_then_dedup_then_search"
   ],
   "note": ""
  },
  {
   "property": "C95",
   "status": "proved",
   "theorems": [
    "NdSlice.sorts_at_once",
    "NdSlice.sorts_at_once_safe",
    "NdSlice.cached_sorts_at_once",
    "NdSlice.cached_sorts_at_once_safe"
   ],
   "note": "All calls have the same flavour and share the user code; cached key sorts are mixed among themselves only; the buffers are assumed to lie apart, as an allocator gives them."
  },
  {
   "property": "C96",
   "status": "proved",
   "theorems": [
    "NdSlice.binary_searches_at_once",
    "NdSlice.binary_searches_at_once_correct",
    "NdSlice.binary_searches_at_once_safe",
    "NdSlice.partition_points_at_once",
    "NdSlice.contains_at_once",
    "NdSlice.is_sorted_at_once",
    "NdSlice.partition_points_at_once_safe",
    "NdSlice.contains_at_once_safe",
    "NdSlice.is_sorted_at_once_safe"
   ],
   "note": "The calls made at the same time are of one method and share the user code."
  },
  {
   "property": "C97",
   "status": "proved",
   "theorems": [
    "NdSlice.select_nths_at_once",
    "NdSlice.select_nths_at_once_safe",
    "NdSlice.select_manies_at_once",
    "NdSlice.select_manies_at_once_safe",
    "NdSlice.par_select_manies_at_once",
    "NdSlice.par_select_manies_at_once_safe"
   ],
   "note": "The calls made at the same time are of one method and share the user code. That a debug build may fail an assertion is C47."
  },
  {
   "property": "C98",
   "status": "proved",
   "theorems": [
    "NdSlice.mixture_at_once",
    "NdSlice.mixture_at_once_safe"
   ],
   "note": "The calls share the user code; the results of the calls are the subject of C97. The buffers are assumed to lie apart, as an allocator gives them. Cached key sorts are not part of the mixture (C95)."
  },
  {
   "property": "C99",
   "status": "proved",
   "theorems": [
    "NdSlice.dedups_at_once",
    "NdSlice.dedups_at_once_safe"
   ],
   "note": "All calls have the same flavour and share the user code."
  }
 ]
}