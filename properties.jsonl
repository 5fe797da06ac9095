{"id": "C01", "title": "Stable sort sorts", "statement": "After sort(), sort_by(cmp) or sort_by_key(key) with a comparator that is a total (pre)order, the array is in non-descending order: no later element compares less than an earlier one.", "quantifier": "every element type, every strided 1-dimensional view (any offset, any non-zero or negative stride, any length) of every array content, every strict weak order; no bound on the length, so runs, merges and insertion cases of every shape are included", "why_tests_cant": "The control flow depends on the run structure of the input (streaks, short batches, merge collapse order); tests sample a vanishing part of n! orders and rarely exceed a few merge levels.", "anchors": ["src/lib.rs: Slice1Ext::sort, sort_by, sort_by_key", "src/stable_sort.rs: stable_sort", "src/merge_sort.rs: merge_sort, merge, collapse, provide_sorted_batch, find_streak", "src/insertion_sort.rs"]}
{"id": "C02", "title": "Stable sort permutes", "statement": "After sort/sort_by/sort_by_key the array holds exactly the same multiset of elements as before: nothing lost, duplicated or invented.", "quantifier": "every element type, every strided 1-dimensional view (any offset, any non-zero or negative stride, any length) of every array content, every comparator behaviour (also inconsistent or stateful ones) that returns", "why_tests_cant": "Elements are moved bitwise through raw pointers, temporary holes and a scratch buffer; a lost or doubled element shows only on particular interleavings of comparisons.", "anchors": ["src/merge_sort.rs: merge, MergeHole", "src/insertion_sort.rs: insert_tail, insert_head, InsertionHole", "src/stable_sort.rs: stable_sort"]}
{"id": "C03", "title": "Stable sort is stable", "statement": "sort/sort_by/sort_by_key keep elements that compare equal in their original relative order.", "quantifier": "every element type, every strided 1-dimensional view (any offset, any non-zero or negative stride, any length) of every array content, every strict weak order", "why_tests_cant": "A single `<` versus `<=` in one of many merge/insert branches breaks it only on specific tie patterns across run boundaries.", "anchors": ["src/lib.rs: sort, sort_by, sort_by_key docs", "src/merge_sort.rs: merge, find_streak (strictly descending), provide_sorted_batch"]}
{"id": "C04", "title": "Stable sort with an inconsistent comparator is safe", "statement": "If the comparator is not an order at all (random, stateful, contradictory) sort/sort_by/sort_by_key still terminate, never access memory out of bounds or otherwise trigger undefined behaviour, never panic on their own, and leave a permutation of the input.", "quantifier": "every sequence of answers a comparator can give, chosen adversarially and adaptively, on every input of every length", "why_tests_cant": "The set of comparator behaviours is infinite and adaptive; no finite test suite enumerates the answer sequences.", "anchors": ["src/lib.rs: sort_by docs (unspecified order, memory safety)", "src/merge_sort.rs", "src/insertion_sort.rs"]}
{"id": "C05", "title": "Stable sort is panic safe", "statement": "If the comparator panics at any of its calls during sort/sort_by/sort_by_key, the panic propagates and the array still holds each original element exactly once (no duplicates that would double-drop, no losses).", "quantifier": "every call index at which the comparator may panic, in every execution with every comparator", "why_tests_cant": "There is a panic point per comparison; the guards restoring the hole must be right at each of them for all contents.", "anchors": ["src/insertion_sort.rs: insert_tail, insert_head", "src/merge_sort.rs: MergeHole::drop, BufGuard", "src/partition.rs: InsertionHole::drop"]}
{"id": "C06", "title": "Unstable sort sorts and permutes", "statement": "After sort_unstable/sort_unstable_by/sort_unstable_by_key with a total (pre)order the array is in non-descending order and is a permutation of the input.", "quantifier": "every element type, every strided 1-dimensional view (any offset, any non-zero or negative stride, any length) of every array content, every strict weak order", "why_tests_cant": "Pattern-defeating quicksort switches between insertion sort, heapsort, block partitioning, equal-element partitioning, reversal and pattern breaking depending on the data; covering all switch histories by tests is infeasible.", "anchors": ["src/lib.rs: sort_unstable*", "src/quick_sort.rs: quick_sort, recurse", "src/partition.rs: partition, partition_in_blocks, partition_equal, choose_pivot, break_patterns", "src/heap_sort.rs"]}
{"id": "C07", "title": "Unstable sort with an inconsistent comparator is safe", "statement": "With an arbitrary (inconsistent, stateful) comparator sort_unstable* still terminates, has no undefined behaviour (all unchecked accesses and pointer moves stay in bounds), does not panic by itself and leaves a permutation.", "quantifier": "every adaptive adversarial answer sequence on every input of every length, in debug and release builds", "why_tests_cant": "Block partitioning uses unchecked indices stored in offset buffers; safety must hold for answer sequences no ordered comparator produces.", "anchors": ["src/partition.rs: partition_in_blocks, partition_equal, partition", "src/quick_sort.rs: recurse", "src/heap_sort.rs: heap_sort"]}
{"id": "C08", "title": "Unstable sort is panic safe", "statement": "If the comparator panics at any call of sort_unstable*, the panic propagates and the array still holds each original element exactly once.", "quantifier": "every panic point of every execution with every comparator", "why_tests_cant": "A pivot copy lives outside the array while comparisons run; each comparison is a possible exit and must restore it.", "anchors": ["src/partition.rs: InsertionHole", "src/quick_sort.rs", "src/insertion_sort.rs", "src/heap_sort.rs"]}
{"id": "C09", "title": "Sorting touches nothing outside the view", "statement": "All in-place operations (sorts, selections, dedup, reverse) on a strided or reversed view modify only the elements of that view; every other element of the underlying array is left untouched, on normal return and on panic.", "quantifier": "every offset, stride (including negative) and length of a view into any memory, every comparator behaviour", "why_tests_cant": "An off-by-one write beyond a view hits a neighbouring row only for specific layouts and data.", "anchors": ["src/lib.rs: impl Slice1Ext for ArrayBase<S, Ix1>", "src/partition.rs", "src/merge_sort.rs", "src/insertion_sort.rs"]}
{"id": "C10", "title": "select_nth_unstable places the right element", "statement": "select_nth_unstable(i) (and _by, _by_key) with a total (pre)order returns (in builds with debug assertions: if it returns, see C47) and leaves at position i an element that is at i in the sorted array; everything before compares not greater, everything after not less; the result triple (left, pivot, right) covers positions [0,i), i, (i,len) of the reordered array; the array stays a permutation.", "quantifier": "every element type, every strided 1-dimensional view (any offset, any non-zero or negative stride, any length) of every array content, every index below the length, every strict weak order", "why_tests_cant": "Quickselect falls back to median-of-medians after imbalanced partitions; this path is only reached by adversarial inputs.", "anchors": ["src/lib.rs: select_nth_unstable*", "src/partition.rs: partition_at_index, partition_at_index_loop, median_of_medians, median_of_ninthers, ninther, median_idx"]}
{"id": "C11", "title": "select_nth_unstable with arbitrary comparator is safe", "statement": "With an arbitrary comparator select_nth_unstable* terminates without undefined behaviour and leaves a permutation; if the comparator panics each element is still present exactly once.", "quantifier": "every adaptive adversarial answer sequence and every panic point, on every input and index", "why_tests_cant": "See quantifier: infinite, adaptive.", "anchors": ["src/partition.rs: partition_at_index, partition_at_index_loop, median_of_ninthers, partition, partition_equal"]}
{"id": "C12", "title": "select_nth_unstable panics exactly on a bad index", "statement": "select_nth_unstable*(i) panics on its own iff i >= len, and then before any element has been moved and before the comparator was called; for i < len it never panics in release builds.", "quantifier": "every length, every index, every comparator", "why_tests_cant": "Needs absence of a panic over all executions.", "anchors": ["src/partition.rs: partition_at_index", "src/lib.rs: select_nth_unstable docs"]}
{"id": "C13", "title": "select_many_nth_unstable selects all the requested elements", "statement": "select_many_nth_unstable(indices) (and _by, _by_key) with strictly increasing in-range indices and a total (pre)order returns (in builds with debug assertions: if it returns, see C47) and reorders the array such that for each requested index the element at that position is its sorted-order element, everything before it is not greater and everything after it not less, and the returned values are those elements in the order of the indices.", "quantifier": "every element type, every strided 1-dimensional view (any offset, any non-zero or negative stride, any length) of every array content, every strictly increasing list of in-range indices, every strict weak order", "why_tests_cant": "Divide and conquer over the indices with offset arithmetic; number of index subsets is exponential.", "anchors": ["src/lib.rs: select_many_nth_unstable*", "src/partition.rs: partition_at_indices"]}
{"id": "C14", "title": "select_many_nth_unstable rejects bad indices", "statement": "select_many_nth_unstable* panics by itself iff the indices are not strictly increasing or some index is out of range (in builds with debug assertions also if that of C47 fails), both with and without overflow checks (release builds wrap `index - offset`), and never has undefined behaviour; the array stays a permutation.", "quantifier": "every list of indices, every array length, every usize width, debug and release arithmetic, every comparator", "why_tests_cant": "Wrapping arithmetic must never make a bad index look valid; ranges over all index lists.", "anchors": ["src/partition.rs: partition_at_indices", "src/lib.rs: select_many_nth_unstable docs (panics)"]}
{"id": "C15", "title": "sort_by_cached_key sorts stably and keeps all elements", "statement": "sort_by_cached_key(f) leaves the array as the stable sort of its elements by f: non-descending keys, ties in original order, a permutation of the input.", "quantifier": "every element type, every strided 1-dimensional view (any offset, any non-zero or negative stride, any length) of every array content, every key function, every total order on keys", "why_tests_cant": "Applies an index permutation in place by cycle chasing through already moved indices; errors need specific cycle structures.", "anchors": ["src/lib.rs: sort_by_cached_key, par_sort_by_cached_key"]}
{"id": "C16", "title": "sort_by_cached_key calls the key function once per element", "statement": "sort_by_cached_key calls f exactly once on each element, in array order (not at all for len < 2), and if f panics the array is unchanged.", "quantifier": "every array, every (stateful) key function, every panic point", "why_tests_cant": "Call-count claims are about every execution.", "anchors": ["src/lib.rs: sort_by_cached_key docs"]}
{"id": "C17", "title": "sort_by_cached_key never truncates an index", "statement": "The compact index type chosen for the cached keys (u8, u16, u32 or usize) represents all positions of the array, so no index wraps, for arrays of any length addressable by usize.", "quantifier": "every array length below 2^usize-bits, every combination of key and index sizes", "why_tests_cant": "Boundary lengths like 2^16 and 2^32 are not exercised by tests.", "anchors": ["src/lib.rs: sort_by_cached_key sort_by_key! macro, sz_u8/sz_u16/sz_u32/sz_usize"]}
{"id": "C18", "title": "partition_dedup keeps the first of each run", "statement": "partition_dedup/_by/_by_key split the array into (dedup, duplicates) such that dedup is the original sequence with every element removed that is equal to the last kept one, in original order; together both parts are a permutation of the original array.", "quantifier": "every element type, every strided 1-dimensional view (any offset, any non-zero or negative stride, any length) of every array content, every same-bucket relation (not necessarily an equivalence)", "why_tests_cant": "Unchecked two-pointer loop; correctness is an inductive invariant over all prefixes.", "anchors": ["src/partition_dedup.rs: partition_dedup", "src/lib.rs: partition_dedup*"]}
{"id": "C19", "title": "partition_dedup on a sorted array removes all duplicates", "statement": "If the array is sorted by an order and same-bucket is its equivalence, dedup contains no two equal elements, is strictly ascending and contains a representative of every element.", "quantifier": "every sorted array of every length and every strict weak order", "why_tests_cant": "Universal over arrays.", "anchors": ["src/lib.rs: partition_dedup docs"]}
{"id": "C20", "title": "partition_dedup is safe for arbitrary and panicking predicates", "statement": "With an arbitrary (stateful) same_bucket the function terminates without out-of-bounds accesses, calls it exactly len-1 times, and leaves a permutation; if it panics each element is still present exactly once. The dedup part is non-empty iff the array is.", "quantifier": "every answer sequence and every panic point", "why_tests_cant": "Infinite adaptive behaviours.", "anchors": ["src/partition_dedup.rs: partition_dedup"]}
{"id": "C21", "title": "reverse reverses", "statement": "reverse() leaves at position i the element formerly at len-1-i, for every i.", "quantifier": "every element type, every strided 1-dimensional view (any offset, any non-zero or negative stride, any length) of every array content", "why_tests_cant": "Universal over lengths (even and odd) and strides.", "anchors": ["src/lib.rs: reverse", "src/partition.rs: reverse", "src/lib.rs: reverse"]}
{"id": "C22", "title": "is_sorted decides sortedness", "statement": "is_sorted/is_sorted_by/is_sorted_by_key return true iff the given relation (`<=` on elements or keys, or the closure) holds for every adjacent pair; if that relation is transitive this is equivalent to it holding for every pair of positions i < j; the array is not modified.", "quantifier": "every element type, every strided 1-dimensional view (any offset, any non-zero or negative stride, any length) of every array content, every boolean relation (also partial orders with incomparable elements)", "why_tests_cant": "The equivalence adjacent-pairs/all-pairs is a theorem about all arrays.", "anchors": ["src/lib.rs: is_sorted, is_sorted_by, is_sorted_by_key"]}
{"id": "C23", "title": "Binary search is correct on arrays sorted by the search function", "statement": "If the array is partitioned by the comparator (all Less before all Equal before all Greater), binary_search/_by/_by_key return Ok(i) with an Equal element at i iff an Equal element exists, and otherwise Err(i) where i is the number of Less elements, so inserting there keeps the array sorted.", "quantifier": "every array and every comparator partitioning it", "why_tests_cant": "Boundary arithmetic over all lengths.", "anchors": ["src/lib.rs: binary_search, binary_search_by, binary_search_by_key"]}
{"id": "C24", "title": "Binary search is safe and logarithmic for any comparator", "statement": "For any search function (unsorted array, stateful comparator) binary_search_by terminates with at most floor(log2(len))+1 calls, returns Ok(i) with i < len only where the comparator answered Equal at i, or Err(i) with i <= len, never accesses out of bounds, and does not modify the array.", "quantifier": "every answer sequence, every length", "why_tests_cant": "Adaptive answer sequences; call bound over all of them.", "anchors": ["src/lib.rs: binary_search_by (uget, debug asserts)"]}
{"id": "C25", "title": "partition_point finds the boundary", "statement": "If the array is partitioned by pred, partition_point returns the number of elements satisfying pred; for any pred the result is <= len and uses at most floor(log2(len))+1 calls.", "quantifier": "every array and every predicate", "why_tests_cant": "Universal over lengths and predicates.", "anchors": ["src/lib.rs: partition_point"]}
{"id": "C26", "title": "contains decides membership", "statement": "contains(x) returns true iff some element equals x; the array is not modified.", "quantifier": "every array, every element, every equality function", "why_tests_cant": "Universal over arrays.", "anchors": ["src/lib.rs: contains"]}
{"id": "C27", "title": "Parallel stable sort is correct under every schedule", "statement": "par_sort/par_sort_by/par_sort_by_key give, for every interleaving of rayon tasks, a sorted, stable permutation of the input; hence the result equals that of sort and does not depend on the schedule.", "quantifier": "every schedule of the fork-join tasks, every input of every length, every strict weak order", "why_tests_cant": "Schedules are not controllable by tests and their number is exponential.", "anchors": ["src/par/merge_sort.rs: par_merge_sort, merge_sort, recurse, par_merge, split_for_merge", "src/lib.rs: par_sort*"]}
{"id": "C28", "title": "Parallel stable sort is safe for arbitrary and panicking comparators", "statement": "With any comparator, under every schedule, par_sort* terminates, has no undefined behaviour and no data race; on return the array is a permutation; if the comparator panics in any task, after the panic has propagated the array still holds each element exactly once.", "quantifier": "every schedule, every adversarial answer sequence, every set of panicking calls", "why_tests_cant": "Interleavings times answer sequences times panic points.", "anchors": ["src/par/merge_sort.rs: par_merge State::drop, recurse CopyOnDrop, merge MergeHole"]}
{"id": "C29", "title": "Parallel unstable sort is correct under every schedule", "statement": "par_sort_unstable/_by/_by_key give a sorted permutation of the input under every schedule; with an arbitrary comparator they terminate without undefined behaviour and leave a permutation; a panic of the comparator in any task leaves each element exactly once.", "quantifier": "every schedule, every input, every comparator behaviour and panic point", "why_tests_cant": "Schedules and answer sequences are unbounded.", "anchors": ["src/par/quick_sort.rs: quick_sort, recurse", "src/lib.rs: par_sort_unstable*"]}
{"id": "C30", "title": "Parallel selection of many is correct under every schedule", "statement": "par_select_many_nth_unstable/_by/_by_key satisfy the select_many_nth_unstable specification under every schedule, and every result slot is initialised before the results are exposed.", "quantifier": "every schedule, every strictly increasing in-range index list, every input, every strict weak order", "why_tests_cant": "Uninitialised results would need an unlucky path; schedules not enumerable.", "anchors": ["src/par/partition.rs: par_partition_at_indices", "src/lib.rs: par_select_many_nth_unstable*"]}
{"id": "C31", "title": "Parallel operations are free of data races", "statement": "In no reachable state of par_sort*, par_sort_unstable* and par_select_many_nth_unstable* can two tasks be about to access the same element (or scratch-buffer cell) with at least one of them writing.", "quantifier": "every reachable state of every schedule, with every comparator", "why_tests_cant": "Races are schedule-dependent and silent.", "anchors": ["src/par/quick_sort.rs: recurse (rayon::join)", "src/par/merge_sort.rs: par_merge, recurse, par_merge_sort", "src/par/partition.rs: par_partition_at_indices"]}
{"id": "C32", "title": "Parallel operations are deterministic", "statement": "With a pure comparator (possibly inconsistent, possibly panicking on some arguments) the result and the final array of par_sort_unstable*, par_select_many_nth_unstable* and par_sort* are the same for every schedule: those of running the tasks one after the other. The exception is the array left by par_sort* when the comparator panics: tasks which have not started yet are then never run, so only the result (a panic) is the same.", "quantifier": "every pair of schedules, every input", "why_tests_cant": "Exponential number of schedules.", "anchors": ["src/par/quick_sort.rs", "src/par/merge_sort.rs", "src/par/partition.rs"]}
{"id": "C33", "title": "Every schedule of the parallel operations ends", "statement": "Every schedule of par_sort*, par_sort_unstable* and par_select_many_nth_unstable* reaches an end state after finitely many steps: no deadlock, no livelock, for any comparator.", "quantifier": "every infinite or finite schedule, every comparator behaviour", "why_tests_cant": "Liveness over all executions.", "anchors": ["src/par/*.rs"]}
{"id": "C34", "title": "Scratch buffer of the stable sort suffices", "statement": "The stable sort allocates one buffer of len/2 elements (par: len) and never reads or writes beyond it, whatever the comparator answers.", "quantifier": "every length, every answer sequence", "why_tests_cant": "An overflow would need a particular run structure.", "anchors": ["src/merge_sort.rs: BufGuard, merge", "src/par/merge_sort.rs: par_merge_sort"]}
{"id": "C35", "title": "Sorting a sorted array is cheap and changes nothing", "statement": "sort* and sort_unstable* on an already sorted array leave it unchanged; sort* then uses exactly len-1 comparisons, as does par_sort* (on every schedule, unless the array has more than 2000 elements and its last chunk of 2000 has one element only), and sort_unstable* exactly len-1 plus those of the pivot choice (none up to 20 elements, 3 below 50 elements, 12 from 50 elements on).", "quantifier": "every sorted array of every length, every strict weak order", "why_tests_cant": "Claims about all lengths.", "anchors": ["src/merge_sort.rs: find_streak", "src/quick_sort.rs: recurse (likely_sorted)", "src/partition.rs: choose_pivot"]}
{"id": "C36", "title": "No comparisons on trivial arrays", "statement": "No operation calls the comparator, key function or predicate on arrays with fewer than two elements where none is needed: sort*, sort_unstable*, sort_by_cached_key, is_sorted*, partition_dedup*.", "quantifier": "every operation, every array of length 0 or 1, every closure", "why_tests_cant": "Small, but about every closure.", "anchors": ["src/lib.rs", "src/stable_sort.rs", "src/quick_sort.rs"]}
{"id": "C37", "title": "Zero-sized elements", "statement": "Sorting, selecting and deduplicating arrays of zero-sized elements has no undefined behaviour, terminates, and leaves the array unchanged; select_nth_unstable on them panics iff the index is out of range.", "quantifier": "every zero-sized type (all values equal), every length and index", "why_tests_cant": "Tests use few zero-sized types.", "anchors": ["src/partition.rs: partition_at_index (is_zst)", "src/stable_sort.rs: stable_sort", "src/quick_sort.rs: quick_sort"]}
{"id": "C38", "title": "Recursion depth is logarithmic", "statement": "sort_unstable* recurses at most floor(log2(len))+2 levels deep, for any input and any comparator, so it cannot exhaust the stack.", "quantifier": "every input length, every answer sequence", "why_tests_cant": "Worst-case depth needs adversarial inputs.", "anchors": ["src/quick_sort.rs: recurse (recurse into the shorter side)"]}
{"id": "C39", "title": "Merge-run stack stays small and collapses completely", "statement": "In the stable sort the stack of pending runs satisfies the TimSort invariants (each run longer than the next two together, from the top down to the bottom) after each collapse round, so its height is logarithmic in len, and the final loop always ends with exactly one run covering the array.", "quantifier": "every sequence of run lengths (every comparator behaviour)", "why_tests_cant": "The famous TimSort bug in collapse only shows for crafted run-length sequences of huge arrays.", "anchors": ["src/merge_sort.rs: collapse, merge_sort, RunVec", "src/par/merge_sort.rs: collapse"]}
{"id": "C40", "title": "Run stack memory management", "statement": "The growable stack of runs never reads or writes out of its allocation, keeps its contents when growing, and frees each allocation exactly once with the layout it was allocated with, for any push/remove history.", "quantifier": "every history of pushes and removals, every allocator behaviour (including failure at any allocation)", "why_tests_cant": "Allocation failure and growth beyond 16 runs are hard to trigger in tests.", "anchors": ["src/merge_sort.rs: RunVec"]}
{"id": "C41", "title": "Worst-case comparison bounds", "statement": "Stable sort uses O(n log n) comparisons and so does unstable sort (heapsort fallback); selection via median-of-medians fallback is bounded by a linear function.", "quantifier": "every input length and every answer sequence (also inconsistent ones)", "why_tests_cant": "Asymptotic worst case is not testable.", "anchors": ["src/merge_sort.rs", "src/quick_sort.rs: recurse (limit)", "src/heap_sort.rs", "src/partition.rs: median_of_medians"]}
{"id": "C42", "title": "Sort then search", "statement": "After sort or sort_unstable, binary_search(x) returns Ok iff the original array contained an element comparing equal to x.", "quantifier": "every array, every probe, every strict weak order", "why_tests_cant": "Composition over all arrays.", "anchors": ["src/lib.rs: sort, sort_unstable, binary_search"]}
{"id": "C43", "title": "Sort and dedup indices then select many", "statement": "An arbitrary list of in-range indices that has been sorted with sort_unstable and deduplicated with partition_dedup is always accepted by select_many_nth_unstable in release builds (for others see C47).", "quantifier": "every list of in-range indices", "why_tests_cant": "Composition over all index lists.", "anchors": ["src/lib.rs: sort_unstable, partition_dedup, select_many_nth_unstable docs"]}
{"id": "C44", "title": "The _by and _by_key variants agree", "statement": "x_by_key(f) behaves as x_by(|a,b| f(a).cmp(f(b))) and x() as x_by(cmp): same final array, same result, for every operation; the key function is called on exactly the compared elements (twice per comparison, left operand first).", "quantifier": "every operation, every pure key function, every input", "why_tests_cant": "Equality of behaviours over all inputs.", "anchors": ["src/lib.rs: *_by_key wrappers", "src/partition.rs: from_is_less"]}
{"id": "C45", "title": "Block partitioning partitions", "statement": "The partition step used by unstable sort and selection, for any pivot position and any predicate behaviour, returns a split position such that (for a pure predicate) exactly the elements satisfying it come first, and stays in bounds for every answer sequence.", "quantifier": "every slice length (multi-block inputs above 256 elements included), every answer sequence", "why_tests_cant": "Block boundaries and remainder cases (two partial blocks) are data dependent.", "anchors": ["src/partition.rs: partition, partition_in_blocks, partition_equal"]}
{"id": "C46", "title": "Deterministic sequential results", "statement": "sort_unstable* and select_* use no hidden randomness: with a pure comparator the final array depends only on the input array's contents, not on the stride, offset, previous calls or surrounding memory.", "quantifier": "every two memories holding the same view contents, in any layout", "why_tests_cant": "Relational property over pairs of executions.", "anchors": ["src/partition.rs: break_patterns (deterministic seed)", "src/quick_sort.rs"]}
{"id": "C47", "title": "select_nth_unstable never fails its own debug assertions", "statement": "In builds with debug assertions select_nth_unstable*(i) with i < len and a comparator that does not panic returns without panicking (no debug_assert! of the crate fails).", "quantifier": "every array, every index in range, every comparator, debug and release builds", "why_tests_cant": "Needs sixteen unbalanced partitions in a row followed by a slice of exactly 11 elements; random tests do not get there.", "anchors": ["src/partition.rs: median_of_medians (debug_assert), median_of_ninthers (frac)", "src/partition.rs: partition_at_index_loop (limit)"]}
{"id": "C48", "title": "par_sort_by_cached_key sorts stably on every schedule and calls the key function once", "statement": "par_sort_by_cached_key(f) leaves the array as the stable sort of its elements by f on every schedule, calls f exactly once per element (in any order), and leaves the array unchanged if f or a key comparison panics.", "quantifier": "every array, every schedule of the key tasks, every order in which the bridge collects the keys, every key function", "why_tests_cant": "The bridge hands out elements and collects keys in an order that depends on thread timing.", "anchors": ["src/lib.rs: par_sort_by_cached_key"]}
{"id": "C49", "title": "The permutation depends on the outcomes of comparisons only", "statement": "Two arrays of the same length, of any element types and in any layout, whose corresponding elements compare in the same way are permuted in the same way by every sort and select operation: same comparisons in the same order, same final permutation, same result positions, same panics.", "quantifier": "every pair of arrays, every translation of elements compatible with the user code, stateful, inconsistent and panicking user code included", "why_tests_cant": "Relational property over pairs of executions with different element types.", "anchors": ["src/quick_sort.rs", "src/merge_sort.rs", "src/partition.rs", "src/par/merge_sort.rs"]}
{"id": "C50", "title": "Stable sort comparison bound", "statement": "sort* makes at most 8 * n * floor(log2 n) comparisons on n elements, whatever the comparator answers (also inconsistently or by panicking) and whatever the allocator does.", "quantifier": "every array length, every answer sequence, every allocator", "why_tests_cant": "Worst cases over all answer sequences are not testable; the bound needs the run-stack invariant for every history.", "anchors": ["src/merge_sort.rs: merge_sort, collapse, merge, provide_sorted_batch", "src/lib.rs: sort (documented O(n log n) worst case)"]}
{"id": "C51", "title": "Unstable sort comparison bound", "statement": "sort_unstable* makes at most n * (263 * floor(log2 n) + 279) comparisons on n elements if the comparator is a consistent strict weak order.", "quantifier": "every array, every strict weak order, all method flavours", "why_tests_cant": "Adversarial inputs for pattern-defeating quicksort are hard to find; the bound needs the potential of limit, balance and equal elements.", "anchors": ["src/quick_sort.rs: recurse (limit)", "src/heap_sort.rs", "src/partition.rs", "src/insertion_sort.rs: partial_insertion_sort"]}
{"id": "C52", "title": "No polynomial bounds the comparisons of selection", "statement": "The documented O(n) worst case of select_nth_unstable is false: for every exponent j there is a constant c such that on every long enough array of distinct elements some consistent strict weak order (with many elements comparing equal) makes select_nth_unstable(len - 2) use at least len^j / c comparisons. There are also arrays of numbers less than 240 (so of bytes), in their usual order, with this many comparisons, for every long enough length and layout and all three flavours.", "quantifier": "every exponent, every layout, every long enough array of distinct elements (release builds)", "why_tests_cant": "Needs an adversary that forces sixteen unbalanced partitions and then a nested recursion on equal elements; no test shows an asymptotic lower bound.", "anchors": ["src/partition.rs: median_of_medians, median_of_ninthers, partition_at_index_loop (limit)", "src/lib.rs: complexity table, select_nth_unstable (guarantees linear runtime for all inputs)"]}
{"id": "C53", "title": "Selection is linear if few elements are equal", "statement": "For every m there is a constant K such that select_nth_unstable* makes at most K * n comparisons on n elements of which no more than m are equal to each other, for every index; select_many_nth_unstable* and par_select_many_nth_unstable* (on every schedule) make at most K * n * (floor(log2 j) + 1) comparisons for j indices.", "quantifier": "every m, every array with at most m equal elements, every layout, every list of indices (valid or not), every strict weak order, every schedule", "why_tests_cant": "Needs the ninthers' guarantee about the pivot's rank and the recursion of median_of_medians for all lengths.", "anchors": ["src/partition.rs: median_of_medians, median_of_ninthers, ninther, median_idx, partition_at_index_loop, partition_at_indices", "src/par/partition.rs: par_partition_at_indices"]}
{"id": "C54", "title": "par_sort_unstable is quadratic in the worst case", "statement": "The documented O(n log n) worst case of par_sort_unstable* is false: on every array of n >= 8000 distinct elements some consistent strict weak order makes par_sort_unstable use at least n^2 / 400 comparisons (the limit of bad pivots is not lowered when the slices are sorted by a join). For every length and layout there is also such an array of numbers less than n in their usual order, for all three flavours.", "quantifier": "every length from 8000, every layout, every array of distinct elements", "why_tests_cant": "Needs an adversary that keeps every pivot bad; no test shows an asymptotic lower bound.", "anchors": ["src/par/quick_sort.rs: recurse (join of both sides, limit)", "src/lib.rs:509, 547, 607 (O(n log n) worst-case)"]}
{"id": "C55", "title": "Uninitialised memory is not read; user code sees elements of the array only", "statement": "At every point of every execution, under every schedule, whatever user code answers and wherever it panics: the sorts, selections, searches and partition_dedup* neither read nor depend on memory which is neither in the array nor written by themselves before (in particular the uninitialised merge buffers), user code has been shown elements of the original array only, and the array only holds elements of the original array. (For partition_dedup_by and partition_dedup_by_key, whose closures may change elements, only the first part.)", "quantifier": "every array, every layout, every user code, every allocator, every schedule, every point of the execution", "why_tests_cant": "Reads of uninitialised memory usually go unnoticed in tests, and show only for particular lengths, run patterns, panics and schedules.", "anchors": ["src/merge_sort.rs: merge, BufGuard, MergeHole", "src/par/merge_sort.rs: par_merge, recurse, par_merge_sort (buffer with_capacity)", "src/quick_sort.rs, src/partition.rs, src/heap_sort.rs, src/insertion_sort.rs, src/partition_dedup.rs, src/lib.rs: binary_search_by, contains"]}
{"id": "C56", "title": "Parallel stable sort comparison bound", "statement": "par_sort* makes at most 8 * n * floor(log2 n) comparisons on n elements, whatever the comparator answers (also inconsistently or by panicking), at every moment of every schedule.", "quantifier": "every array length, every answer sequence, every schedule, every moment of an execution", "why_tests_cant": "Worst cases over all answer sequences and schedules are not testable; needs the run-stack invariant per chunk and the cost of the binary searches of par_merge.", "anchors": ["src/par/merge_sort.rs: par_merge_sort, merge_sort, recurse, par_merge, split_for_merge", "src/lib.rs: par_sort (documented O(n log n) worst case)"]}
{"id": "C57", "title": "Quadratic comparison bound of the unstable sorts whatever user code answers", "statement": "sort_unstable* and par_sort_unstable* make at most 7 * n^2 comparisons on n elements, whatever the comparator answers (also inconsistently or by panicking), the parallel ones at every moment of every schedule. So user code without an order cannot make them run on.", "quantifier": "every array length, every answer sequence, every schedule, every moment of an execution", "why_tests_cant": "Inconsistent comparators have no finite set of representatives to test; the bound needs progress of every iteration of every branch.", "anchors": ["src/quick_sort.rs: recurse", "src/par/quick_sort.rs: recurse", "src/partition.rs: partition, partition_equal"]}
{"id": "C58", "title": "Quasi-polynomial comparison bound of selection whatever user code answers", "statement": "select_nth_unstable* makes at most 24 * (n + 1)^(floor(log2 n) + 2) comparisons on n elements, whatever the comparator answers (also inconsistently or by panicking); select_many_nth_unstable* at most that many per index, and par_select_many_nth_unstable* as well at every moment of every schedule.", "quantifier": "every array length, every index list, every answer sequence, every schedule, every moment of an execution", "why_tests_cant": "Complements the lower bound (no polynomial bound exists); needs the recursion of median_of_medians for every answer sequence.", "anchors": ["src/partition.rs: partition_at_index_loop, median_of_medians, median_of_ninthers", "src/par/partition.rs: par_partition_at_indices"]}
{"id": "C59", "title": "sort_unstable is quadratic for some comparators which are no order", "statement": "With a pure comparator which never panics but is no strict weak order (is_less(a, b) iff a == b), for every layout of n >= 100 positions there is an array of two different values on which sort_unstable* asks at least n^2 / 5 questions; so O(n log n) holds for consistent comparators only. (recurse takes the pivot for equal to the predecessor, partition_equal then takes off a single element, and neither the limit nor was_balanced changes.)", "quantifier": "every length from 100, every layout, every two different values, every comparator state", "why_tests_cant": "An asymptotic lower bound; needs an array crafted against choose_pivot and a comparator no test would use.", "anchors": ["src/quick_sort.rs: recurse (check of the predecessor)", "src/partition.rs: partition_equal, choose_pivot"]}
{"id": "C60", "title": "Strictly descending arrays are reversed in linear time", "statement": "sort* and par_sort* (on every schedule, unless n > 2000 and n mod 2000 = 1) on a strictly descending array of n > 20 elements, and sort_unstable* and par_sort_unstable* (on every schedule) on one of n >= 50 elements, return with exactly the reversed array and nothing else changed, after exactly n - 1 comparisons (the unstable sorts 12 more).", "quantifier": "every strictly descending array of these lengths, every layout, every consistent comparator, all method flavours, every schedule", "why_tests_cant": "Performance promise for every length; the count is exact and depends on pivot choice, reversal and early exit working together.", "anchors": ["src/quick_sort.rs: recurse", "src/partition.rs: choose_pivot, reverse", "src/insertion_sort.rs: partial_insertion_sort", "src/merge_sort.rs: find_streak, merge_sort"]}
{"id": "C61", "title": "The sorts and selections compute the sort on lists", "statement": "With a consistent comparator, sort*, par_sort* (every schedule), sort_by_cached_key and par_sort_by_cached_key leave exactly the list which the core library's stable List.mergeSort makes of the original contents. sort_unstable* and par_sort_unstable* leave at each position an element comparing equal to that of the list sort, and exactly the list sort if the order tells the elements apart. select_nth_unstable*, select_many_nth_unstable* and par_select_many_nth_unstable* hand out references to elements of the requested ranks of the list sort in the same sense.", "quantifier": "every array, every layout, every strict weak order, all method flavours, every schedule (selections: release builds)", "why_tests_cant": "Functional specification of all the entry points at once by one function which knows nothing of the implementation.", "anchors": ["src/lib.rs: sort*, par_sort*, sort_unstable*, par_sort_unstable*, sort_by_cached_key, par_sort_by_cached_key, select_nth_unstable*, select_many_nth_unstable*, par_select_many_nth_unstable*"]}
{"id": "C62", "title": "Panics of user code are passed on at once, and not invented", "statement": "In every sequential operation: once a comparator, key function or equality panics no further user code is called, and the operation ends with this panic; and an operation in which no user code has panicked does not end with a panic of user code. par_sort* and par_sort_unstable* return normally exactly if no call of user code in any task has panicked, and otherwise pass a panic of user code on; par_select_many_nth_unstable* and par_sort_by_cached_key do not return normally if some call has panicked, and have a panic of user code only if some call has.", "quantifier": "every array, every layout, every user code (also inconsistent), all method flavours, every schedule", "why_tests_cant": "Tests inject a few panics; that none is swallowed and nothing is called between panic and unwinding depends on every guard and every join.", "anchors": ["src/lib.rs: all methods taking user code", "src/merge_sort.rs: merge, MergeHole, BufGuard", "src/insertion_sort.rs: InsertionHole", "src/partition.rs: partition, partition_in_blocks", "src/par/merge_sort.rs: par_merge, recurse", "src/par/quick_sort.rs: recurse", "src/par/partition.rs: par_partition_at_indices"]}
{"id": "C63", "title": "Elements with interior mutability: no change made by a comparison is lost", "statement": "A comparator gets references and may change what it compares (Cell, atomics, Mutex inside of elements). Whatever it answers and changes, and wherever it panics, sort*, sort_unstable*, select_nth_unstable* and select_many_nth_unstable* end, in the ways described for unchanging elements, and each original object is in the array exactly once, in the state to which all calls about it have led; each call was about two objects of the array and was shown their current states, also while one of them is a copy on the stack (the inserted element, the pivot, the element sifted or merged). If the comparator compares by a part of the state which it does not change, the objects are sorted (stably) or selected by it.", "quantifier": "every array, every layout, every user code (changing elements, inconsistent, panicking), all method flavours; elements of non-zero size", "why_tests_cant": "Duplicate copies of an element during a comparison make the change of one of them vanish; tests with plain integers cannot see it, and each of the several dozen call sites needs its own scenario.", "anchors": ["src/insertion_sort.rs: insert_tail, insert_head, InsertionHole", "src/heap_sort.rs: sift_down", "src/partition.rs: choose_pivot, partition, partition_in_blocks, partition_equal, median_of_medians", "src/merge_sort.rs: merge, MergeHole", "src/quick_sort.rs: recurse"]}
{"id": "C64", "title": "Tasks of the parallel methods never share an element", "statement": "From the fork of two tasks to their join, no cell of the array or of the buffer is touched by both of them, not even for reading and not even at different times: all accesses of one task (and its subtasks) and of the other are to different cells. So no element is referred to by two threads at the same time, and requiring Send (not Sync) of the elements is sound.", "quantifier": "every array, every layout, every user code, every schedule, all parallel methods", "why_tests_cant": "Sharing of reads is no data race and invisible to race detectors and tests; it breaks soundness only for element types with interior mutability, and only for some schedules.", "anchors": ["src/par/quick_sort.rs: recurse (pred and pivot references)", "src/par/merge_sort.rs: par_merge, recurse, par_merge_sort", "src/par/partition.rs: par_partition_at_indices", "src/lib.rs: par_sort*, par_sort_unstable*, par_select_many_nth_unstable*, par_sort_by_cached_key"]}
{"id": "C65", "title": "select_many_nth_unstable with any user code in Extend::extend", "statement": "The collection is given mutable references one by one while the selection goes on. Whatever its extend does (keep references, change any element given before, panic) and whatever the comparator does, select_many_nth_unstable* ends without undefined behaviour. If it returns, extend was called once per index, in order, each time with the element of that rank (consistent comparators); from then on nothing but extend changed the element, each call found the elements given before as the previous call had left them, and the final array holds what the last call left; with the elements handed out put back the array is a permutation of the original, and nothing outside of it changed. If it panics this holds for the elements handed out so far, and a panic of extend or the comparator is passed on at once, with no further call of user code. In release builds with good indices, a consistent comparator and an extend which does not panic it returns.", "quantifier": "every array, every layout, every list of indices, every comparator and every collection, all method flavours; the collection writes while extend is called", "why_tests_cant": "The references outlive the recursion that goes on partitioning next to them; tests use a HashMap or Vec, which neither writes nor panics.", "anchors": ["src/partition.rs: partition_at_indices", "src/lib.rs: select_many_nth_unstable, select_many_nth_unstable_by, select_many_nth_unstable_by_key"]}
{"id": "C66", "title": "Recursion depth of the selections and of the parallel stable sort is logarithmic", "statement": "partition_at_indices and par_partition_at_indices with fewer than 2^d indices need at most d+1 nested calls of themselves. median_of_medians on fewer than 11*12^d elements needs at most d+1. par_merge of runs of at most 2^a and 2^b elements needs at most a+b+1, however the search splits the shorter run. recurse of the parallel merge sort on at most 2000*2^d elements needs at most d+1, each with at most 2a+1 nested calls of par_merge if there are at most 2^a elements. All this for any comparator, even an inconsistent one.", "quantifier": "every array, every layout, every list of indices, every user code", "why_tests_cant": "Stack use depends on how the comparator lets the search split the runs; tests never come near the end of the stack.", "anchors": ["src/partition.rs: partition_at_indices, median_of_medians, median_of_ninthers", "src/par/partition.rs: par_partition_at_indices", "src/par/merge_sort.rs: par_merge, split_for_merge, recurse, par_merge_sort"]}
{"id": "C67", "title": "Recursion depth of par_sort_unstable is linear in the worst case", "statement": "In contrast to sort_unstable, whose recursion goes into the shorter side only (C38), par_sort_unstable* calls recurse for both sides as long as the longer one has more than 2000 elements, and the limit on unbalanced partitions does not work there (C54). For every layout, every array of distinct elements and every d with 48*d + 2001 <= len there is a strict weak order with which d nested calls of recurse are not enough. So the stack needed is linear in the number of elements; without the feature stacker nothing keeps it from overflowing. For every length and layout there is also such an array of numbers less than len in their usual order, for all three flavours.", "quantifier": "every array of distinct elements of non-zero size, every layout; some strict weak order; the run in which the left task goes first", "why_tests_cant": "The inputs with deep recursion are special permutations which random tests never hit.", "anchors": ["src/par/quick_sort.rs: recurse", "src/lib.rs: maybe_grow, par_sort_unstable"]}
{"id": "C68", "title": "Running time: element accesses are bounded by the calls of user code", "statement": "Counting reads and writes of elements (in the array and in the buffer), calls of user code, ends of joins and choices of the environment as steps: with c calls of user code so far, the number of steps is at most 13*c + 2*len + 2 for sort*, 13*c + 2*len + 24 for sort_unstable*, par_sort_unstable* and select_nth_unstable*, 13*c + 2*len + 24 + 4*k and 13*c + 2*len + 24 + 28*k for select_many_nth_unstable* and par_select_many_nth_unstable* with k indices, 13*c + 4*len*log2(len) + 2*len + 2 for par_sort*, 13*c + 2 for is_sorted*, partition_dedup*, and 13*c + 1 for binary_search*, partition_point, contains and sort_by_cached_key (its sort of pairs not counted); reverse takes 2*len. This holds at every moment, for any user code, and for the parallel methods for all tasks together under every schedule. With the bounds on comparisons: sort* and par_sort* take O(n log n) steps and sort_unstable* O(n^2) whatever user code does, sort_unstable* O(n log n) if the comparator is consistent, and selections O(n) if few elements are equal.", "quantifier": "every array, every layout, every user code, every schedule, all method flavours; at every moment of the run", "why_tests_cant": "Tests count comparisons at most; superfluous moves of elements (copying a run again in every round, reversing repeatedly, draining a guard twice) show up only as slowness, and only for some inputs.", "anchors": ["src/lib.rs: all methods", "src/merge_sort.rs: merge_sort, merge", "src/insertion_sort.rs", "src/heap_sort.rs", "src/quick_sort.rs: recurse", "src/partition.rs", "src/par/merge_sort.rs: par_merge_sort, par_merge, recurse", "src/par/quick_sort.rs: recurse", "src/par/partition.rs: par_partition_at_indices", "src/partition_dedup.rs"]}
{"id": "C69", "title": "Only the answers given matter", "statement": "Nothing is assumed about what user code would answer to questions it was not asked, or at other times, and it may panic. If sort* or par_sort* returns and all answers given in this very run agree with some strict weak order, the array holds the stable sort by it; likewise sort_unstable* and par_sort_unstable* (sorted permutation), select_nth_unstable*, select_many_nth_unstable* and par_select_many_nth_unstable* (elements in their sorted places), under every schedule. As long as the answers agree with a strict weak order, the bounds on the number of comparisons of sort_unstable* (C51) and of the selections (C53) hold, also if user code panics afterwards. This covers partial_cmp().unwrap() on arrays with incomparable values.", "quantifier": "every array, every layout, every user code, every schedule, all method flavours", "why_tests_cant": "Tests use comparators which are orders everywhere; a comparator which panics or is inconsistent elsewhere is a different program.", "anchors": ["src/lib.rs: sort*, par_sort*, sort_unstable*, par_sort_unstable*, select_nth_unstable*, select_many_nth_unstable*, par_select_many_nth_unstable*"]}
{"id": "C70", "title": "With few different values the unstable sorts make a linear number of comparisons", "statement": "With a consistent comparator, sort_unstable* and par_sort_unstable* make at most n*(32*k + 19) comparisons on n elements among which there are at most k different values (classes of elements neither less nor greater than each other), at every moment, in parallel for all tasks together under every schedule; so the number of steps is linear, too. Selection has no such bound: for every power j there are arrays of numbers less than 240 (so of bytes), for every layout and every large enough length, in which select_nth_unstable* of the element at len-2 takes at least len^j/c comparisons (release build), while both unstable sorts sort the same array with at most 7699*len comparisons.", "quantifier": "every array, every layout, every strict weak order, every schedule, all method flavours", "why_tests_cant": "Whether equal elements are set aside only once per value, and not recursed into again, shows up only as slowness; tests check results.", "anchors": ["src/quick_sort.rs: recurse (pred), quick_sort", "src/par/quick_sort.rs: recurse, par_quick_sort", "src/partition.rs: partition_equal, partition, partition_at_index", "src/lib.rs: sort_unstable*, par_sort_unstable*, select_nth_unstable*"]}
{"id": "C71", "title": "The critical path of par_sort is short", "statement": "With as many threads as there are tasks, par_sort* on n elements is done after the time of n/2000 + 102001 + log2(n)*(5000 + 3*(log2(n)+1)^2) comparisons, whatever the user code answers: the longest chain of calls of user code each of which has to wait for the one before is that short, at every moment of every schedule (if no chunk is put off till the others are done). For n = 2^32 this is less than n/1000 comparisons. Up to 2000 elements there is one task only.", "quantifier": "every array, every layout, every user code, every schedule, all method flavours", "why_tests_cant": "Whether the parts really run independently, and are split evenly enough whatever the comparator answers, shows up only as slowness on machines with many processors.", "anchors": ["src/par/merge_sort.rs: par_merge_sort, recurse, par_merge, split_for_merge", "src/lib.rs: par_sort*"]}
{"id": "C72", "title": "par_sort on several processors", "statement": "P processors sort n elements with par_sort* in the time of at most 8*n*log2(n)/P + n/2000 + 102001 + log2(n)*(5000 + 3*(log2(n)+1)^2) comparisons, whatever the user code answers, if no processor is idle while there is a task to go on with (and no chunk is put off till the others are done). Every such run can be continued to the end of the sort, and is one of the schedules the other properties are about. For n = 2^32 and P = 1000 this is at most a 990th of the time of 8*n*log2(n) comparisons.", "quantifier": "every array, every layout, every user code, every number of processors, every order of the steps, all method flavours", "why_tests_cant": "The speed-up on many processors cannot be measured by tests of results, and benchmarks cover some sizes, inputs and machines.", "anchors": ["src/par/merge_sort.rs: par_merge_sort, recurse, par_merge, split_for_merge", "src/lib.rs: par_sort*"]}
{"id": "C73", "title": "Memory besides the array", "statement": "Up to 20 elements are sorted by sort* and par_sort* within the array, whatever the user code does: no buffer is accessed, and a failing allocator or its choice of addresses makes no difference. Beyond this sort* accesses no more than the array and len/2 elements of a buffer (C34). The documentation says the same of par_sort* (half the size of self), but there it is false: with a consistent comparator, if one of the first 2000 elements is greater than some later one and one is not greater than some later one, every schedule of par_sort* ends with all len elements in the buffer, and each of its len places has been overwritten. The same happens, with any user code that does not panic and even if the array is already sorted, whenever the last of two or more chunks of 2000 elements has only one element (len > 2000, len mod 2000 = 1).", "quantifier": "every array, every layout, every user code (buffer use of par_sort*: every strict weak order), every allocator, every schedule, all method flavours", "why_tests_cant": "Tests see neither accesses to the buffer nor how much of it is used, and do not run out of memory.", "anchors": ["src/merge_sort.rs: merge_sort", "src/par/merge_sort.rs: par_merge_sort, recurse", "src/lib.rs: sort*, par_sort*"]}
{"id": "C74", "title": "Speed on sorted sequences", "statement": "If the array consists of n sequences one after the other, each sorted or strictly descending, then sort* with a consistent comparator makes at most len*(6*log2(n)+29) comparisons and a proportional number of steps. If it is a sorted array in which k elements were replaced, it makes at most len*(6*log2(2k+1)+29) comparisons. For par_sort* the bounds are len*(2*log2(n)+56) and len*(2*log2(2k+1)+56), all tasks together.", "quantifier": "every array, every layout, every partition into sequences, every strict weak order, every schedule, all method flavours", "why_tests_cant": "The documentation promises speed on nearly sorted arrays and on concatenated sorted sequences; tests check results, and a benchmark samples some such arrays.", "anchors": ["src/merge_sort.rs: merge_sort, find_streak, provide_sorted_batch, collapse", "src/par/merge_sort.rs: par_merge_sort, merge_sort", "src/lib.rs: sort*, par_sort*"]}
{"id": "C75", "title": "Interior mutability in the parallel methods", "statement": "As C63 under every schedule: whatever the comparator answers and changes in the elements it is shown, and wherever it panics, par_sort*, par_sort_unstable* and par_select_many_nth_unstable* end without a data race (the changes made by comparators included), in the ways described for unchanging elements, and each original object is in the array exactly once, in a state to which the calls about it have led one after the other; each call was about two objects of the array. If the comparator compares by a part of the state which it does not change, the objects are sorted (by par_sort* stably) or selected by it.", "quantifier": "every array, every layout, every user code (changing elements, inconsistent, panicking), every schedule, all method flavours; elements of non-zero size", "why_tests_cant": "Elements that are Send but not Sync may be changed by the comparator without a lock; a copy used by another task at the same time would be a race that shows up only for such elements and some schedules.", "anchors": ["src/par/merge_sort.rs: par_merge_sort, recurse, par_merge, split_for_merge, merge_sort", "src/par/quick_sort.rs: recurse, par_quick_sort", "src/par/partition.rs: par_partition_at_indices", "src/par/heap_sort.rs", "src/par/insertion_sort.rs", "src/lib.rs: par_sort*, par_sort_unstable*, par_select_many_nth_unstable*"]}
{"id": "C76", "title": "Interior mutability in the cached key sorts", "statement": "Whatever the key function does to the element it is given (interior mutability), whatever user code answers and wherever it panics, sort_by_cached_key ends, and every schedule of par_sort_by_cached_key ends without a data race (the changes made by the key function included). At a normal end the key function was called once on each element of the original array, in array order (in parallel: in some order); each object is in the array once, in the state its call left it in, and the objects are sorted stably by the keys these calls gave if keys are compared by a strict weak order. If a key call panics nothing has been moved: the elements before it are in the states their calls left them in, the element it was given is in the state it left, later ones are untouched (in parallel: each element is untouched, or was given to one call and is in the state this call left). If a comparison of keys panics, all elements are in place in the states left by their calls.", "quantifier": "every array, every layout, every user code (changing elements, inconsistent, panicking), every schedule", "why_tests_cant": "Tests use plain numbers; a second call of the key function, a call on a copy, or an element moved before all keys are known would show only with elements that remember calls, and only with a panic at the right call.", "anchors": ["src/lib.rs: sort_by_cached_key, par_sort_by_cached_key"]}
{"id": "C77", "title": "Selecting the minimum or the maximum", "statement": "select_nth_unstable* with the last index makes exactly len-1 comparisons and does nothing but exchange the first of the greatest elements with the element at the last position. With index 0 in an array of two or more elements it makes exactly len-1 comparisons and does nothing but exchange the last of the least elements with the element at the first position. All other memory is as before.", "quantifier": "every array, every layout, every strict weak order, all method flavours; elements of non-zero size", "why_tests_cant": "Tests check that the selected element is right, not which of equivalent elements it is, that the others did not move, nor the number of comparisons.", "anchors": ["src/partition.rs: partition_at_index, from_is_less", "src/lib.rs: select_nth_unstable*"]}
{"id": "C78", "title": "Out of memory in the stable sort", "statement": "If one of the two allocations made at the start of sort* fails, it panics at once, with the array untouched and no user code called. The stack of runs is made larger, from room for h = 16*2^i to twice as many runs, only by arrays of more than T(h) = 11*fib(h) + 12*fib(h+1) - 12 - h elements (29993 for the first time); whatever the allocator does, up to 29993 elements sort* with a consistent comparator sorts stably or panics with the array untouched, and with any comparator it has no undefined behaviour. The bound is exact, and beyond it the code is wrong: for every length greater than T(h), with an allocator which has memory for h runs but not for 2h, there is an array of two different values on which sort* has undefined behaviour (the stack of runs is freed with twice its size), with every consistent comparator.", "quantifier": "every allocator behaviour, every length, every layout, every strict weak order, all method flavours; elements of non-zero size", "why_tests_cant": "Tests do not run out of memory, and the arrays that make the stack of runs grow have to be crafted.", "anchors": ["src/merge_sort.rs: merge_sort, find_streak, provide_sorted_batch, collapse, RunVec::push, RunVec::drop", "src/stable_sort.rs: stable_sort", "src/lib.rs: sort*"]}
{"id": "C79", "title": "No time less than one pass in the unstable parallel methods", "statement": "On any number of threads and under every schedule, par_sort_unstable* on n elements, and par_select_many_nth_unstable* with at least one index, return only after n-1 comparisons each of which had to wait for the one before: the first pass over the array is not shared between threads (compare C71: par_sort* needs about n/2000). sort_unstable*, select_nth_unstable* and select_many_nth_unstable* with at least one index return only after n-1 comparisons.", "quantifier": "every array, every layout, every comparator (inconsistent ones included) that does not panic, every schedule, all method flavours; elements of non-zero size", "why_tests_cant": "The documentation says that the methods are parallel; a measurement of time depends on the machine, and a comparison left out in some branch gives right results on most arrays.", "anchors": ["src/par/quick_sort.rs: recurse, par_quick_sort", "src/par/partition.rs: par_partition_at_indices, partition_at_index, partition, partition_in_blocks", "src/quick_sort.rs: recurse, quick_sort", "src/partition.rs: partition_at_index, partition, partition_in_blocks", "src/insertion_sort.rs: partial_insertion_sort, insertion_sort_shift_left", "src/lib.rs: par_sort_unstable*, par_select_many_nth_unstable*, sort_unstable*, select_nth_unstable*, select_many_nth_unstable*"]}
{"id": "C80", "title": "No overlapping copies", "statement": "Every call of ptr::copy_nonoverlapping on elements made by the sorting and selecting methods, by their drop guards after a panic of user code included, has a source and a destination which are different cells, whatever user code answers, changes in the elements, and wherever it panics; in the parallel methods under every schedule.", "quantifier": "every array, every layout, every user code (changing elements, inconsistent, panicking), every schedule, all method flavours (cached key sorts use safe swaps only); elements of non-zero size (for others no byte is copied)", "why_tests_cant": "A copy of an element onto itself changes nothing on today's hardware, hence no test of results can see it; it is undefined behaviour all the same. It would need an index off by one in a loop which is run by few inputs, or a guard dropped at an unusual moment.", "anchors": ["src/insertion_sort.rs: InsertionHole::drop, insert_tail, insert_head", "src/partition.rs: partition_in_blocks, InsertionHole::drop", "src/merge_sort.rs: merge, MergeHole::drop", "src/par/merge_sort.rs: merge, par_merge, State::drop, recurse, insert_head", "src/par/insertion_sort.rs", "src/par/partition.rs"]}
{"id": "C81", "title": "No two exclusive references to one element in partition_dedup", "statement": "partition_dedup* call same_bucket only with exclusive references to a later and an earlier element of the array, never with two references to the same element, and never with a reference to anything else, whatever same_bucket is: with a check of this added the methods are the same program.", "quantifier": "every array, every layout with distinct elements, every same_bucket (changing elements, inconsistent, panicking), all method flavours, every state", "why_tests_cant": "Two &mut to one element are undefined behaviour that works by accident in most builds; comparing an element with itself would only be noticed as a wrong duplicate.", "anchors": ["src/partition_dedup.rs: partition_dedup", "src/lib.rs: partition_dedup, partition_dedup_by, partition_dedup_by_key"]}
{"id": "C82", "title": "At least n-1 comparisons in the stable sorts", "statement": "sort* and par_sort* on n elements return only after n-1 comparisons, those of all threads together, whatever the comparator answers, whatever the allocator does and under every schedule. On a sorted array sort* makes no more.", "quantifier": "every array, every layout, every comparator (inconsistent ones included) that does not panic, every allocator behaviour, every schedule, all method flavours; elements of non-zero size", "why_tests_cant": "A comparison left out (a run taken to be longer than it was checked, a merge of chunks skipped) gives right results on most arrays; no sort can be right on all arrays with less.", "anchors": ["src/merge_sort.rs: merge_sort, find_streak, provide_sorted_batch, merge, collapse", "src/stable_sort.rs: stable_sort", "src/par/merge_sort.rs: insert_head, merge_sort, merge, collapse, split_for_merge, par_merge, recurse, par_merge_sort", "src/lib.rs: sort*, par_sort*"]}
{"id": "C83", "title": "Worst case of the sorts is at least log2 of n!", "statement": "For every array of n different elements there is a strict weak order and a comparator that agrees with it, with which sort* and sort_unstable* make k comparisons with n! <= 2^k, hence k >= n*log2(n)/2. For par_sort* and par_sort_unstable* there is a comparator that never panics and makes them do so under every schedule, all of its answers in a run being those of one order. So the upper bounds on the comparisons are best possible up to constants.", "quantifier": "every array of different elements, every layout, every element type with equality, every schedule and choice of the environment, all method flavours", "why_tests_cant": "A statement about the worst of n! orders; a sort that does with less on all of them is wrong on some, which random tests of long arrays need not hit.", "anchors": ["src/stable_sort.rs: stable_sort", "src/merge_sort.rs: merge_sort", "src/quick_sort.rs: quick_sort", "src/par/merge_sort.rs: par_merge_sort", "src/par/quick_sort.rs: par_quick_sort", "src/lib.rs: sort*, sort_unstable*, par_sort*, par_sort_unstable*"]}
{"id": "C84", "title": "The searches ask as few questions as possible", "statement": "On every array of n > 0 different elements there is a place of the partition point for which partition_point asks for log2(n)+1 elements (rounded down), and something to search for, equal to no element, with which binary_search* makes that many comparisons: n+1 results take so many questions, and no more are ever asked (C24). contains compares the elements in their order, each once, and stops at the first found equal; is_sorted* tests neighbours in their order, each pair once, and stops at the first test that fails; whatever user code answers.", "quantifier": "every array (different elements for the lower bounds), every layout, every position, all method flavours; contains, is_sorted*: arbitrary user code", "why_tests_cant": "Tests see results, not the questions asked; a search with too few questions is wrong for some position only, and one with too many or repeated questions returns the same results.", "anchors": ["src/lib.rs: partition_point, binary_search, binary_search_by, binary_search_by_key, contains, is_sorted, is_sorted_by, is_sorted_by_key", "src/partition.rs: is_sorted"]}
{"id": "C85", "title": "The questions of the parallel methods do not depend on the schedule", "statement": "With a pure comparator any two schedules of par_sort_unstable* and par_select_many_nth_unstable* ask user code the same questions, each of them as many times, in some order, and give the same result, also if user code panics; the same holds for any two schedules of par_sort* that return. So there is a pure comparator for each array of n different elements with which par_sort* and par_sort_unstable* make at least log2 of n! comparisons under every schedule.", "quantifier": "every array, every layout, every pure comparator (inconsistent ones included; panicking ones for the unstable methods), any two schedules and environments, all method flavours", "why_tests_cant": "Tests see one schedule per run and compare results at most; a task run twice or a comparison made only if another task is late is invisible in the result.", "anchors": ["src/par/quick_sort.rs: par_quick_sort, recurse", "src/par/partition.rs: par_partition_at_indices", "src/par/merge_sort.rs: par_merge_sort, recurse, par_merge", "src/lib.rs: par_sort*, par_sort_unstable*, par_select_many_nth_unstable*"]}
{"id": "C86", "title": "After a panic the outcome of par_sort depends on the schedule", "statement": "There are an array and a pure comparator that panics on some elements with which two schedules of par_sort both pass on the panic, but leave the elements in different orders and have asked different numbers of questions; likewise the key function of par_sort_by_cached_key has been called a different number of times. So the restriction to runs that return cannot be dropped from C32 and C85 (it is not there for par_sort_unstable* and par_select_many_nth_unstable*).", "quantifier": "existential: one array of 2003 elements and one comparator (par_sort); three elements and every sort of the vector of keys (par_sort_by_cached_key)", "why_tests_cant": "It takes a particular schedule at the moment of a panic to see the difference; a test sees one of the outcomes.", "anchors": ["src/par/merge_sort.rs: par_merge_sort", "src/lib.rs: par_sort, par_sort_by_cached_key"]}
{"id": "C87", "title": "par_sort on at most 2000 elements uses half of its buffer", "statement": "With at most 2000 elements par_sort*, which allocates a buffer for all of them, neither reads nor writes the second half of the buffer, whatever user code does: with accesses to it counted as undefined behaviour its run is the same and has none. It sorts stably, and permutes with any user code, even if only the first half of the buffer lies apart from the array. (With more than 2000 elements all of the buffer is overwritten in general, C73.)", "quantifier": "every array of at most 2000 elements, every layout, every comparator (inconsistent, panicking), every address of the buffer, all method flavours", "why_tests_cant": "An access beyond the part needed stays inside of the allocation and is seen by no test, but would be out of bounds with the buffer of half the size that the documentation promises.", "anchors": ["src/par/merge_sort.rs: merge, merge_sort, par_merge_sort", "src/lib.rs: par_sort, par_sort_by, par_sort_by_key"]}
{"id": "C88", "title": "Placing the elements of the cached key sorts is linear", "statement": "In sort_by_cached_key and par_sort_by_cached_key the inner loop `while index < i`, which looks for an element that was moved before, runs at most len - 1 times in all rounds together, whatever user code does and on every schedule; with that many iterations allowed the methods sort as ever. An array whose least element is last and which is sorted otherwise needs all of them, so the bound is exact. So placing does not spoil the documented O(m * n + n * log(n)).", "quantifier": "every length, every layout, every order of the keys, every user code (inconsistent, panicking), every schedule, every sort of the vector with the documented behaviour; exactness: every length, every SWO", "why_tests_cant": "The bound is about all permutations; a quadratic worst case shows only for particular ones and only in the running time.", "anchors": ["src/lib.rs: sort_by_cached_key", "src/lib.rs: par_sort_by_cached_key"]}
{"id": "C89", "title": "Select, then sort the parts", "statement": "Sorting (sort_unstable*) the part which select_nth_unstable*(k) returns as left makes the first k + 1 elements of the array those of the sorted array, in order: they are sorted and no later element is less. Sorting the part it returns as right as well sorts the whole array and leaves the first k + 1 elements as they are. The array stays a permutation of the input, and nothing outside of it changes.", "quantifier": "every array, layout, index in range, SWO, any three flavours with user code of their own for the three calls, release builds", "why_tests_cant": "The claim ranges over all arrays and indices and depends on the views returned being the parts of the same array on either side of k and nothing else.", "anchors": ["src/lib.rs: select_nth_unstable*, sort_unstable*", "src/partition.rs: partition_at_index", "src/quick_sort.rs: quick_sort"]}
{"id": "C90", "title": "Sort by a minor key, then by a major one", "statement": "sort* by one order and then sort* by another one leaves the array as the stable sort by the second order, with elements equal in it ordered by the first one (lexicographic order); the same for par_sort* on every schedule of both, for sort_by_cached_key and par_sort_by_cached_key (every schedule) with two key functions, and for sort_unstable* followed by sort* (without the original order of elements that are equal in both).", "quantifier": "every array, layout, pair of SWOs (key functions), any flavours; every schedule for the parallel methods", "why_tests_cant": "That sorts can be chained like this is what stability is for; a rare instability shows only in particular combinations of keys.", "anchors": ["src/lib.rs: sort*, par_sort*, sort_by_cached_key, sort_unstable*", "src/stable_sort.rs: stable_sort", "src/par/merge_sort.rs: par_merge_sort"]}
{"id": "C91", "title": "Which questions of par_sort_by_cached_key depend on the schedule", "statement": "All schedules of par_sort_by_cached_key that return have called the key function on the same elements (each of them once if there are two at least), whatever user code does. The number of comparisons of keys may depend on the schedule even with a pure key function and a total order: there are three elements and an admissible sort of the vector of keys with which two schedules make different numbers of them. So C85 cannot be extended to this method.", "quantifier": "calls of the key function: every length, layout, user code, schedule, every sort of the vector with the documented behaviour; comparisons: existential, insertion sort of the vector", "why_tests_cant": "It takes two schedules of the same input to compare; the resulting array is the same for both.", "anchors": ["src/lib.rs: par_sort_by_cached_key"]}
{"id": "C92", "title": "is_sorted tells whether sorting changes anything", "statement": "is_sorted* returns true exactly if sort* (sort_unstable*, sort_by_cached_key; par_sort*, par_sort_unstable* and par_sort_by_cached_key on every schedule) leaves the elements of the array as they are, and it returns true on the array that they leave. is_sorted* itself changes nothing.", "quantifier": "every array, layout, SWO with the matching partial order for is_sorted*, any flavours with user code of their own, every schedule for the parallel methods", "why_tests_cant": "Two algorithms that share no code have to agree about all arrays, in particular about equal neighbours and lengths 0 and 1.", "anchors": ["src/lib.rs: is_sorted, is_sorted_by, is_sorted_by_key", "src/lib.rs: sort*, par_sort*, sort_unstable*"]}
{"id": "C93", "title": "Views running backwards", "statement": "Sorting a view inverted by ndarray (the same elements from the last to the first, stride negated) sorts the view itself by the order turned round. The stable sorts (sort*, par_sort*, the cached key sorts) do so stably: equal elements keep their order in the view although the method meets them backwards, so the result is the one of sort* of the view with the order turned round. select_nth_unstable*(k) of the inverted view selects the element of the view at len - 1 - k by that order and returns a reference to it. reverse, sort*, reverse sorts stably by the order turned round, too. reverse of the inverted view reverses the view.", "quantifier": "every view of any stride, every SWO and flavour, every schedule for the parallel methods; selection: release builds", "why_tests_cant": "Negative strides with pointer arithmetic go wrong only for particular layouts, and it takes equal elements to see the stability turned round twice.", "anchors": ["src/lib.rs: sort*, par_sort*, sort_unstable*, par_sort_unstable*, sort_by_cached_key, par_sort_by_cached_key, select_nth_unstable*", "src/partition.rs: reverse", "src/lib.rs: reverse"]}
{"id": "C94", "title": "Sort, dedup, search: the first of equal elements is kept and found", "statement": "After sort* (or par_sort* on every schedule) and partition_dedup* with equality in the order, the first view returned has of all elements equal to each other exactly the one that came first in the original array, in strictly ascending order; both views together have all elements. binary_search* in the first view returns Ok exactly if the original array has an element equal to the one searched for, and the element at the index returned is the first of them in the original array.", "quantifier": "every array, layout, SWO, any flavours with user code of their own for the three calls, every schedule for par_sort*", "why_tests_cant": "It takes the stability of the sort, the choice of the element kept and the search together; a wrong representative of equal elements shows only with elements that are equal but distinguishable.", "anchors": ["src/lib.rs: sort*, par_sort*, partition_dedup*, binary_search*", "src/stable_sort.rs: stable_sort", "src/partition_dedup.rs: partition_dedup"]}
{"id": "C95", "title": "Several arrays sorted at the same time", "statement": "Threads may call the sorts (sort*, sort_unstable*, par_sort*, par_sort_unstable*, in any mixture, or sort_by_cached_key and par_sort_by_cached_key, in any mixture) at the same time on views which have no element in common, e.g. on the rows or the columns of a matrix, each allocating its own buffer. On every schedule there is neither a data race nor undefined behaviour nor a deadlock; each array ends up sorted and a permutation of itself, stably with the stable sorts, and nothing but these arrays and the buffers is changed. With any user code each array stays a permutation of itself, also those of the other threads when user code panics in one.", "quantifier": "every number of arrays, every layout (also interleaved and negative strides), every nesting of the tasks, every schedule, every comparator (SWO for sortedness; inconsistent, panicking for safety)", "why_tests_cant": "Schedules of several sorts on interleaved memory cannot be enumerated; an access to a neighbouring element shows only if another thread changes it at that moment.", "anchors": ["src/lib.rs: sort*, sort_unstable*, par_sort*, par_sort_unstable*, sort_by_cached_key, par_sort_by_cached_key", "src/quick_sort.rs: quick_sort", "src/merge_sort.rs: merge_sort", "src/par/quick_sort.rs: par_quick_sort", "src/par/merge_sort.rs: par_merge_sort"]}
{"id": "C96", "title": "Searches at the same time on the same array", "statement": "Threads may call binary_search*, partition_point, contains and is_sorted* at the same time on the same array or on views with common elements, without any synchronisation. On every schedule there is neither a data race nor undefined behaviour nor a deadlock and nothing is changed. Each call of binary_search* and partition_point returns exactly what it returns when called alone; contains returns whether an equal element exists, is_sorted* whether every element and the next are in order. With any user code nothing is changed, every position returned is within the array, contains says true only if == has said so about an element and false only if it has denied it about each, and the only panics are those of user code.", "quantifier": "every number of calls of a method, every layout (also the same view, overlapping views, stride 0), every nesting of the tasks, every schedule, every value searched, every comparator, predicate or key function (any user code for safety)", "why_tests_cant": "A write to the array, e.g. a swap which is undone later, is invisible to sequential tests and shows only as a race between threads.", "anchors": ["src/lib.rs: is_sorted*, partition_point, contains, binary_search*", "src/partition.rs: is_sorted"]}
{"id": "C97", "title": "Selections at the same time on several arrays", "statement": "Threads may call select_nth_unstable*, or select_many_nth_unstable*, or par_select_many_nth_unstable*, at the same time on views which have no element in common, e.g. for the medians of the columns of a matrix. On every schedule there is neither a data race nor undefined behaviour nor a deadlock; in release builds with good indices each call returns what it promises about its own array (the parts around the index; the pairs of index and reference; every slot written once), with the elements selected in their sorted places, and nothing outside the arrays is changed. In all builds, with any user code and any indices, each array stays a permutation of itself, also those of the other threads when one call panics.", "quantifier": "every number of arrays, every layout (also interleaved and negative strides), every nesting of the tasks, every schedule, every index in range (select_nth), all lists of indices (select_many), every comparator (SWO for selection; inconsistent, panicking for safety)", "why_tests_cant": "Schedules of several selections on interleaved memory cannot be enumerated; an access to a neighbouring element shows only if another thread changes it at that moment.", "anchors": ["src/lib.rs: select_nth_unstable*, select_many_nth_unstable*, par_select_many_nth_unstable*", "src/partition.rs: partition_at_index, partition_at_indices", "src/par/partition.rs: par_partition_at_indices"]}
{"id": "C98", "title": "Sorts and selections at the same time, in any mixture", "statement": "Threads may call sort*, sort_unstable*, par_sort*, par_sort_unstable*, select_nth_unstable*, select_many_nth_unstable* and par_select_many_nth_unstable*, in any mixture, at the same time on views which have no element in common, e.g. one thread sorts a column of a matrix while others take the medians of other columns. On every schedule there is neither a data race nor undefined behaviour nor a deadlock; in release builds with good indices every call returns, each array is a permutation of itself with what the method called on it promises (sorted, stably so with the stable sorts; each selected element in its sorted place), and nothing else is changed but the buffers. In all builds, with any user code and any indices, each array stays a permutation of itself, also when another thread's call panics, and a call that panics does so only for user code, bad indices or (selections in debug builds) an assertion.", "quantifier": "every number of arrays, every layout, every method for each of them, every nesting of the tasks, every schedule, all indices, every comparator (SWO for the results; inconsistent, panicking for safety)", "why_tests_cant": "Schedules of different algorithms on interleaved memory cannot be enumerated; tests of one method at a time say nothing about two of them together.", "anchors": ["src/lib.rs: sort*, par_sort*, sort_unstable*, par_sort_unstable*, select_nth_unstable*, select_many_nth_unstable*, par_select_many_nth_unstable*"]}
{"id": "C99", "title": "Several arrays deduplicated at the same time", "statement": "Threads may call partition_dedup* at the same time on views which have no element in common, e.g. on the columns of a matrix. On every schedule there is neither a data race nor undefined behaviour nor a deadlock; each call splits its own array in two, the first part being the original sequence without every element that is the same as the last one kept; each array is a permutation of itself and nothing else is changed. With any user code, which may change the elements it is given and panic, each call that returns still splits its own array in two, the first part being empty only if the array is; nothing outside the arrays is changed, each stays a permutation of itself unless user code changes elements, also when another thread's call panics, and only user code panics.", "quantifier": "every number of arrays, every layout (also interleaved and negative strides), every length, every nesting of the tasks, every schedule, every relation (not only equivalences), any user code for safety", "why_tests_cant": "Schedules of several deduplications on interleaved memory cannot be enumerated; a swap with a neighbouring element shows only if another thread uses it at that moment.", "anchors": ["src/lib.rs: partition_dedup*", "src/partition_dedup.rs: partition_dedup"]}
{"id": "C100", "title": "Select, then sort both parts at the same time", "statement": "Sorting both parts which select_nth_unstable*(k) returns at the same time (rayon::join of sort_unstable* or par_sort_unstable* on left and on right) sorts the whole array on every schedule, with neither a data race nor undefined behaviour nor a deadlock; the reference to the element selected still refers to position k, whose element it is in the sorted array, and nothing outside of the array changes. The same holds for select_many_nth_unstable* and the sorts of all the gaps between the elements selected, run at the same time; all references returned stay good. In all builds with any user code the array stays a permutation of itself, also when user code panics in one of the sorts while the others run; only user code panics, or (debug builds) an assertion of the selection.", "quantifier": "every array, layout, index in range or list of good indices, schedule, either sort for either part (for all the gaps), every comparator (SWO for the result; inconsistent, panicking for safety)", "why_tests_cant": "The views returned must have no element in common for the two sorts to be free of races, for all arrays, indices and schedules.", "anchors": ["src/lib.rs: select_nth_unstable*, select_many_nth_unstable*, sort_unstable*, par_sort_unstable*", "src/partition.rs: partition_at_index, partition_at_indices", "src/quick_sort.rs: quick_sort", "src/par/quick_sort.rs: par_quick_sort"]}
{"id": "C101", "title": "Sort the rows of a matrix, then its columns", "statement": "If the rows of a two-dimensional array are sorted at the same time (each by any of sort*, sort_unstable*, par_sort*, par_sort_unstable*), and then its columns at the same time, then on every schedule of both steps the columns are sorted in the end and the rows are still sorted. Each step leaves each array it sorts a permutation of itself, and no call panics.", "quantifier": "every matrix with any numbers of rows and columns and any strides for which the rows, and the columns, with the buffers have no cell in common, every mixture of the sorts, every SWO, either step with its own flavour and user code, every schedule", "why_tests_cant": "The second step takes all the rows apart; that they are sorted afterwards depends on every column being sorted exactly, in place and within its own cells, for all matrices and schedules.", "anchors": ["src/lib.rs: sort*, sort_unstable*, par_sort*, par_sort_unstable*"]}
