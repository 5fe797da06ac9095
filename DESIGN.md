# Design: formal model of ndarray-slice in Lean 4

## What is modelled

`/repo/src` is transcribed function by function into *programs*: values of an inductive type
`Prog α ι ω β` (`Verif/Core/Prog.lean`) made of single memory reads and writes, calls of user code,
panics, undefined behaviour, and `rayon::join`.  `α` is the element type, `ι`/`ω` are the questions
put to user code (comparators, keys, predicates) and its answers; the answer `none` is a panic.

* Memory is a function from (integer) addresses to elements.  A one-dimensional ndarray view is
  `View {off, stride, len}` with `stride : Int` of any sign (`Verif/Core/View.lean`).
* Checked operations (`v[i]`, `swap`, `slice`, `split_at`) are modelled with their panic;
  unchecked ones (`uget`, `uget_mut`, raw pointers) are undefined behaviour when out of bounds.
* `debug_assert!` and arithmetic overflow checks follow a configuration flag `dbg`; without it
  `usize` subtraction wraps.
* Drop guards (`InsertionHole`, `MergeHole`, `CopyOnDrop`, ...) are modelled by `onPanic` around
  every user call made while the guard is alive plus the write on normal exit.
* `while` loops whose end is not structurally evident use a bound; running out of it is the outcome
  `diverge`, which every theorem excludes.  So termination is proved, not assumed.

## Semantics (`Verif/Core/Sem.lean`)

* `run`: executable sequential semantics with a stateful oracle for user code.  The state has a log of all questions with
  their answers, so call counts, call orders and "the panic is user code's last answer" can be stated.
* `Step`: small-step semantics; the two sides of a `join` interleave freely, step by step.
* `wp`: demonic weakest precondition with a footprint.  It demands: no undefined behaviour, no
  divergence, accesses inside the footprint, disjoint footprints of the two sides of a `join`, and
  the postcondition for every allowed sequence of answers.
* `Verif/Core/Adequacy.lean` proves that `wp` is sound for `run` and for every schedule of `Step`,
  that it implies race freedom, that every schedule ends, and that results are schedule independent
  for pure comparators.

* `Verif/Core/Sim.lean` relates the sequential runs of two programs: addresses, elements, user states and histories of both may be
  different but related.  One lemma per function of the model (`Verif/Proof/Sim*.lean`) says that it respects such relations.

* `Verif/Core/Path.lean`: `Path` describes a read-only run with the exact number of its questions.
* `Verif/Core/Cost.lean`: `Spend` and `Cost` bound the number of questions for every possible answer and every memory.

* `Verif/Core/Init.lean`: `Init` says that a program only reads cells that are initialised or written by itself before.

Properties are stated with `run` and `Step`, not with `wp`, `Sim`, `Path`, `Cost` or `Init`.

## Specification (`Verif/Spec.lean`)

Strict weak orders, sortedness (`List.Pairwise`), permutation (`List.Perm`), stability (filtering by
an equivalence class commutes with the operation), selection.  Written on plain lists without any
reference to the model.

## Plan per property

| id | modelled | proof |
| --- | --- | --- |
| C01-C05 | `stable_sort`, `merge_sort`, `merge`, `collapse`, run detection, insertion sort | triple on list contents; TimSort run invariant |
| C06-C08 | `quick_sort`, `recurse`, heapsort, insertion sorts, partitions, pivot choice | triple; induction over `recurse` |
| C09 | all of the above | footprint of `wp` |
| C10-C12 | `partition_at_index`, loop, median of medians, ninthers | mutual induction over length |
| C13, C14 | `partition_at_indices` | induction over the index list |
| C15-C17 | `sort_by_cached_key` (std's `sort_unstable` on the key vector is specified, not modelled) | cycle-chasing invariant |
| C18-C20 | `partition_dedup` | loop invariant |
| C21, C22 | `reverse`, `is_sorted` | loop invariant |
| C23-C26 | `binary_search_by`, `partition_point`, `contains` | loop invariant |
| C27, C28 | `par_merge_sort` and helpers | triple with `join` rule |
| C29 | `par_quick_sort` | triple with `join` rule |
| C30 | `par_partition_at_indices` | induction |
| C31-C33 | semantics | adequacy theorems applied to the triples; `par_sort*`: exact postconditions for programs without choices (`Verif/Core/Exact.lean`) |
| C34 | merge buffers | footprint includes exactly len/2 (par: len) scratch cells |
| C35, C36 | all sorts on sorted or trivial arrays | read-only runs (`Verif/Core/Path.lean`), with tasks (`Verif/Core/PathP.lean`) for `par_sort*` |
| C41 | all | budgets (`Verif/Core/Cost.lean`, `Verif/Core/TriB.lean`) |
| C50 | `stable_sort` | budgets; potential of the run stack (Fibonacci growth) |
| C51 | `quick_sort` | budgets with contents; potential of length, limit, balance and of elements equal to the predecessor |
| C52 | `select_nth_unstable` (`median_of_medians` in the fallback) | run of a deterministic adversary, its answers turned into a strict weak order afterwards and replayed; lower bound by recursion on rounds; numbers less than 240: ranks of the order and C49 (Props/Numbers) |
| C53 | `partition_at_index(_loop)`, `median_of_medians`, `median_of_ninthers`, `ninther`, `median_idx`, `(par_)partition_at_indices` | budgets with contents; rank of a median of ninthers (`Verif/Proof/Ninther.lean`) |
| C54 | `par_quick_sort`, its `recurse` | the adversary of C52, other way round; undecided elements stay on the left side of every partition |
| C55 | all methods; for the cached key sorts, the sort of the vector of keys is assumed to do nothing but compare keys | structural predicate `Init` on programs with the set of initialised cells (`Verif/Core/Init.lean`), sound for every schedule |
| C56 | `par_merge_sort` with all it calls | budgets; the run stack of the chunks mirrors the sequential one (`Verif/Proof/CostPar.lean`) |
| C57 | `quick_sort`, `par_quick_sort` | budgets; every iteration removes an element and costs linearly many comparisons (`Verif/Proof/CostQuickAny.lean`) |
| C58 | `(par_)partition_at_indices`, `partition_at_index`, `median_of_medians` | budgets; recursion on the depth of `median_of_medians` (`Verif/Proof/SelectAny.lean`) |
| C59 | `quick_sort` | an array and a pure comparator; a lower bound on the questions (`TriN`, `Verif/Proof/QuickOdd.lean`) |
| C60 | `merge_sort`, `quick_sort`, `par_quick_sort`, `par_merge_sort`, `choose_pivot`, `reverse` | the exact path through the code (`PathW`, `Verif/Core/PathW.lean`; tasks: `PathP`, `Verif/Core/PathP.lean`) |
| C61 | as C01, C06, C10, C13, C15, C27, C29, C30, C48 | uniqueness of the stable sort of a list; `List.mergeSort` of the core library |
| C62 | all entry points taking user code | structural predicates `Prompt` and `Honest` of the programs (Core/Prompt): after a panicking answer the rest of the program is silent up to its end, guards included |
| C63 | sequential sorts and selections once more, on references to places (`Verif/Model/Refs.lean`), elements being objects with a state | `RCtx.RT` (Core/Refs): the run on places is related to the run of the first model whose elements are names of objects and whose user code keeps their states; then C01, C05, C07, C11, C55 of the first model apply |
| C64 | all parallel methods | `NeverShare` (Core/Apart): steps labelled by the cells touched; the footprints in `wp` of both sides of a fork stay the same while it lasts |
| C65 | select_many with the collection | `Given`/`Back` (Proof/Extend): induction along the recursion with the list of references handed out so far in the footprint; `Prompt` for panics |
| C66 | `partition_at_indices`, `par_partition_at_indices`, `median_of_medians`, `par_merge`, `recurse` of the parallel merge sort | equality of programs with different bounds on the nested calls (Proof/Depth); what a subprogram can return (`Rets`, `Gives`) |
| C67 | `recurse` of `par_quick_sort` | the adversary of C54; each call partitions once and is followed by a nested one on all but 48 of the undecided elements (Proof/QuickDeep) |
| C68 | all methods but `par_sort_by_cached_key` | amortised: each step uses a unit of credit and each call of user code yields twelve (`Credit`, Core/Credit; Proof/CreditLeaf, CreditSort, CreditPar); soundness for all schedules (`Credit.steps`) |
| C69 | the sorts and selections | the wrong answers of user code are replaced by panics; a run without wrong answers is a run of this user code, too (`Steps.filter`); then as for C01 ff., whose triples allow panics |
| C70 | `recurse` of both quicksorts, `predCheck`, `partition_equal` | budget triples (Core/TriB) with a potential: twice the number of values in the slice, minus one if the smallest of them equals the predecessor; it drops in every round, so the limit is not used up before the budget of heapsort is paid (Proof/CostFew) |
| C71 | as C56 | timed small-step semantics (Core/Span: `Tick`), in which the parts of a join start together and the program after it when the later part ends; a structural judgement `Span` with the maximum at joins; sequential parts from the budgets of C56 (Proof/Span).  Copies are not counted, tasks are assumed not to be put off |
| C72 | as C71 | a machine with `P` processors and time on top of the same programs (Core/Greedy: `Work`, `Greedy`); the theorem of Graham and Brent for it, by an invariant on the rest of the critical path; C56 and C71 give work and span |
| C73 | as C01 and C27 | the branch for up to 20 elements does not mention the buffer (triples on the array alone); for more than 2000 elements the triple of `parRecurse` also says what is in the buffer: two or more chunks are merged from there (Proof/ParMergeSort: `Overlap`, `parMergeSortChunks_full`); a chunk of one element answers `sorted` and is therefore never concatenated (`OAdj.last_single`) |
| C74 | as C01 and C50 | each run found takes up a whole sequence or what is left of one, or has at least 10 elements (Proof/Sequences, Proof/MergeSort: the rest of the array is as it was, and a streak ends only where the order breaks); the stack invariant then bounds the height of merges by the logarithm of `n`, with short runs paid for by their insertion sorts (Proof/CostAdaptive). `par_sort*`: chunks cost at most 51 comparisons per element anyway; each sequence accounts for at most two places where chunks are not concatenated, so at most `2 n + 1` of them are merged (Proof/CostParAdaptive) |
| C75 | as C63, with a stack cell for each task (`Verif/Model/RefsPar.lean`, `Verif/Model/RefsParMerge.lean`) | each task stays within cells of its own (`Inside`, Core/Serial; Proof/Inside, Proof/InsidePar, Proof/InsideParMerge), so every schedule gives what some sequential run gives with user code giving the same answers (`schedules_serial`); the sequential run is dealt with as for C63 |
| C76 | cached key sorts whose key function is given a reference and may change the element (`Verif/Model/RefsCached.lean`) | triples with a log of the calls (`TriL`) for the key phase; the rest is the program of C15 read for user code with richer answers (`Prog.mapAns`, Core/MapAns), about which `placeAll_spec` and `stable_of_pairs` of C15 are used |
| C77 | `select_nth_unstable*` with the first or the last index | the only possible run (`Path`, `PathW`) is followed: loop invariants for `maxLoop` and `minLoop`, then the swap |
| C78 | as C01, `RunVec` with an allocator that may fail | the least length that needs `h` runs (`cover`, Proof/RunVec) from the invariant of C39; conversely a read-only run ending in `ub` (`Doomed`, Proof/AllocFail) on an array whose runs are as short as the invariant allows |
| C79 | as C71, C06, C10, C13, C29 and C30 | a lower bound of the time along the program (`Lag`, `Owe`, Core/Lag): the first insertion sort, the first partial insertion sort that succeeds, or the first partitioning ask about all elements; the rest takes no time back |
| C80 | as C63 and C75; each `copy_nonoverlapping` is preceded by a check (`Refs.apart`) that is undefined behaviour if source and destination are one cell | the relation of C63 between places and objects: live places are distinct, and the cell on the stack and the buffer are not in the array |
| C81 | `partition_dedup` with any program as `same_bucket` | equality with the program in which two references to one element are undefined behaviour, by induction on the loop |
| C82 | as C01 and C27 | as C79 for the sequential parts (`Owe`); for the parallel ones the questions of both parts of a join are added (`Due`, `Debt`, Core/Due). The runs on the stack and the elements not yet in a run are what is still owed: a run of k elements takes k-1 comparisons, each merge one, each join of two chunks one |
| C83 | as C01, C06, C27 and C29 | user code that keeps all n! orders and gives each question the answer that leaves more of them (Core/Adversary; each comparison leaves at least half, a question for a key all); by C69 (only answers given matter) the result is sorted by every order left, so one is left; for the sequential methods the run is repeated with the pure comparator of that order |
| C84 | as C22-C26 | binary searches: the user code of C83, for the n+1 places at which the array can be cut in two; `contains`, `is_sorted*`: the whole log of a run, by induction |
| C85 | as C32 | Core/ExactLog: in a program without choices of the environment every schedule asks a permutation of the questions of the sequential run (the questions of a task depend on its own cells only); Proof/NoChoose: the unstable methods are such programs; `par_sort*`: the questions of the chunks, whether run early or late, then those of the rest (Proof/ParExact); the lower bound of C83 carried to all schedules |
| C86 | as C32 and C48 | witnesses: two runs with different choices of the environment, computed by the kernel; a run that panics is a schedule (`run_reaches`) |
| C87 | as C27 | Core/Below: programs that differ only where one of them has undefined behaviour; what holds for the one holds for the other. The sort with a buffer of half the length is such a program (Proof/HalfBuffer), and has none |
| C88 | as C15 and C48, with a counter of the iterations of the inner loop (Model/CachedBudget); one more than allowed is `diverge` | Proof/CachedBudget: the steps to an element not yet placed are its moves; their sum over these elements and the rounds to come pay for the iterations. The exact case by following the rounds |
| C89, C90, C92 | as C06, C10; as C01, C15, C27; as C22, C01, C06, C27 | Props/Together: the theorems about the single operations, the memory handed on from one to the next |
| C91 | as C48 | counted from the log of C48; the witness by running two schedules in the kernel |
| C93 | as C01, C06, C10, C15, C21, C27, C29, C48, for the view with the stride negated (`View.inverted`, ndarray's `invert_axis`) | from the theorems about any view, as the contents of the inverted view are the reversed contents; a stable sort of a reversed list, reversed, is the stable sort by the order turned round |
| C94 | as C01, C18, C19, C23, C27 | Props/Distinct: filtering the kept elements of a sorted list by a class gives the first of the class, by induction; stability carries this to the original array |
| C95 | as C01, C06, C27, C29, as tasks of nested `rayon::join`s | the triples of the single sorts, whose footprint is the array and the buffer, and the rule for `join`, by induction over the nesting (Props/Rows; cached key sorts: Props/CachedRows) |
| C96 | as C22–C26, as tasks of nested `rayon::join`s | a judgement for programs which only read, whose tasks may read the same cells (`Looks`, `Verif/Core/Looks.lean`); the single calls from the specifications of C22–C26 and from the one path of a search with consistent user code (Props/Searches) |
| C97 | as C10, C13, C30, as tasks of nested `rayon::join`s | the triples of the single calls and the rule for `join`, by induction over the nesting, for any program with a triple (Props/SelectRows) |
| C98 | as C95 and C97, each task with a method of its own | the triples of the methods brought to one form, then as C97 (Props/Mixture) |
| C99 | as C18 and C20, as tasks of nested `rayon::join`s | the loop invariants of C18 and C20 as triples, then as C97 (Props/DedupRows) |
| C100 | as C06, C10, C13, C29, the sorts as tasks of (nested) `rayon::join`s | the triples of the calls, the rule for `join`, the cells of the selected elements as frame (Props/Halves) |
| C101 | as C95, twice; the rows and columns of a matrix as views on the same cells | C95 for either step; sorting keeps one sequence below another one position by position, by counting the greater elements (Props/Grid) |
| C37 | all with `Subsingleton α` | direct |
| C38 | `recurse` | recursion budget log2 len + 2 never runs out |
| C39, C40 | `collapse`, `RunVec` | invariant over histories |
| C42, C43 | compositions | from the above |
| C44 | wrappers | simulation (`Verif/Core/Sim.lean`) |
| C45 | `partition`, `partition_in_blocks`, `partition_equal` | loop invariants |
| C46, C49 | all sorts and selections | simulation (`Verif/Core/Sim.lean`) between runs on two arrays |
| C47 | as C10, C13, C30 | partial: false in debug builds, witnesses run by the kernel; release builds from C10; short arrays are used up before the limit of 16 unbalanced rounds (`Verif/Proof/SelectShort.lean`, `Verif/Proof/SelectShortGood.lean`) |
| C48 | `par_sort_by_cached_key` (rayon's `par_sort_unstable` is specified, not modelled) | as C15, with `join` rule |

## Trusted base

Lean's kernel; the axioms `propext`, `Classical.choice`, `Quot.sound` only; the transcription of the
Rust code into `Prog` (each definition cites its source lines); the meaning given to Rust
operations by `Prog`/`View`.

As a check of the transcription, the model executes the examples of the crate's documentation (`Verif/Tests/DocExamples.lean`; tests, not proofs).

Not modelled: ndarray's and rayon's internals (their documented behaviour is the meaning of
`View` operations and `join`), the allocator (except for `RunVec`), stack overflow (`maybe_grow` just
runs its closure), std's `sort_unstable` inside `sort_by_cached_key`, elements with interior
mutability changed during a comparison (except in C63, C75 and C76), weak memory (not needed: the programs are race free),
atomicity of comparator calls (a comparator call is one step), the demand of `copy_nonoverlapping` that its two places differ (except in C63, C75 and C80).

Further simplifications:

* `&mut` aliasing rules (Stacked/Tree Borrows) are not modelled, except that the two references given to `same_bucket` are to different elements (C81);
  `deref_into_view_mut` copies of a view are just the same view.  The provenance of pointers is not modelled either: outside of Miri the trace of
  offsets of a block is accessed by a pointer made from a reference to its first byte (`start_l = offsets_l[0].as_mut_ptr()`, partition.rs:571 and 604,
  par/partition.rs:597 and 630), which Stacked Borrows does not allow; under `cfg(miri)` another expression is used.
* Memory is always initialised; the element buffers start with arbitrary contents, and nothing depends on these (C55).
* `Vec` (of runs and chunks in the parallel merge sort) is a list; its allocation failures abort the process.
* `par_bridge().for_each()` (`par/merge_sort.rs`) is a fork of all chunk tasks of which the environment may postpone any; the postponed
  ones run afterwards unless a task panicked.  This allows more behaviours than rayon has.
* The sort of the vector of keys and indices inside of the cached key sorts (std's `sort_unstable`, rayon's `par_sort_unstable`) is a
  parameter with its documented behaviour as hypothesis (`SortsPairs`): touches no array element, asks key comparisons only,
  returns a permutation, sorted if the comparisons are a strict weak order; may panic if they are not.  A `partial_cmp` of keys is
  modelled by questions "less than", equality of keys by two of them.
* `par_bridge().map().collect()` (`par_sort_by_cached_key`) is a fork of one task per element, postponed as above, and collects in any order.
* Overflow of `usize` additions and multiplications is not modelled, only that of subtractions (`usub`).  Lengths are at most `isize::MAX`, and the
  sums and products of the code (`2 * node + 1`, `frac * 9`, `pivot + 1`, `start + 10`) are below twice a length or below a length, hence cannot overflow.
* A panic of a checked access or of a subtraction while a drop guard is alive does not run the guard in the model; these panics are proved not to happen.
* In C63 `is_less` is one call of user code with two references, for all three flavours; one cell `t` stands for all copies of elements on the stack, of
  which at most one is alive at a time.  In C75 each task has such a cell.  User code that reaches other elements than the two it is given is not modelled.
* In C65 the collection may write to the elements handed out only while one of its `extend` calls runs, not during comparisons.
* C68 counts the steps of the semantics.  Loop control, arithmetic, index lists and the run stack (`RunVec`) are not counted; `copy_nonoverlapping` of `n`
  elements counts as `n` reads and `n` writes, `swap` as four accesses.
* Each chunk task gets exactly its own part of the buffer: an access beyond it counts as undefined behaviour.

The files `src/par/{heap_sort,insertion_sort,partition}.rs` were compared with their sequential counterparts line by line: apart from the bounds on
closures (`Fn + Sync` instead of `FnMut`) and `par_partition_at_indices` they are the same, so one model serves for both.

## Findings

* C47 is false in debug builds: `median_of_ninthers` on 11 elements calls `median_of_medians` with an empty slice which violates
  the `debug_assert!` at `partition.rs:189`.  `select_nth_debug_assert_fails` is a witness with 49 elements.  Release builds are
  not affected (`select_nth_no_panic_partial`), nor are arrays of at most 27 elements (`select_nth_short_no_panic_partial`, also for many indices
  and in parallel): they are used up before the limit of 16 unbalanced rounds is.  With 28 elements and an inconsistent comparator the assertion
  can fail (`select_nth_debug_assert_fails_short`).  With a consistent comparator arrays of at most 35 elements are safe
  (`select_nth_few_no_panic_partial`, also for many indices and in parallel): the pivot of an array of 8 to 49 elements has an element on each side or
  an equal one.  With 40 elements and the order of numbers the assertion can fail (`select_nth_debug_assert_fails_good`).  36 to 39 elements are open
  (a search by a program found no failing input).
* C40 is false if an allocation for growing the stack of runs fails: `RunVec::push` then uses a wrong capacity, see
  `run_stack_alloc_failure`.  For `sort*` this takes at least 29994 elements and a failing allocation of 512 bytes; for each such length there
  are arrays of two different values that lead to undefined behaviour (`sort_alloc_failure_ub`, C78).
* `partition_equal` returns 0 for a slice of one element, although the element equals the pivot (harmless: callers only use it on longer ones).
* If the comparator panics, the order in which `par_sort*` leaves the array depends on the schedule even for a pure comparator: chunks whose
  task has not started stay untouched (`par_sort_panic_schedules`, C86).  Everything else is schedule independent (`par_sort_deterministic`).
* The number of comparisons of keys in `par_sort_by_cached_key` depends on the schedule, as the keys reach the vector in any order
  (`par_sort_by_cached_key_comparisons_schedules`, C91; harmless).
* C41 is false for selection: `median_of_medians` does not treat elements equal to the pivot, so with many equal elements each round removes
  a constant number of elements only, and each round recurses on a fixed fraction of the array.  The number of comparisons exceeds every
  polynomial (`select_nth_superpolynomial`, C52).  `select_nth_unstable` is led into the fallback by 16 unbalanced rounds, which an
  adversarial strict weak order forces on any array (`Proof/Adversary.lean`, `Proof/SelectSlow.lean`); arrays of bytes suffice, and sorting
  them takes a linear number of comparisons (`sorting_beats_selecting`, C70).  If the number of elements equal to each
  other is bounded, selection is linear (`select_nth_linear`, C53).
* C41 is false for unstable sorts with inconsistent comparators: `partition_equal` removes one element, does not lower the limit and keeps
  the balance flag, so `n` such rounds are possible: with the comparator "is equal" there are arrays of two different values taking at
  least `len^2 / 5` comparisons (`sort_unstable_inconsistent_quadratic`, C59; `Proof/QuickOdd.lean`).
* The documented O(n log n) worst case of `par_sort_unstable*` (src/lib.rs:509, 547, 607) is false: on a slice that is sorted by a `join` both
  sides start with the limit of the whole slice and as if balanced, so bad pivots are not counted as long as the slices are longer than
  2000.  An adversarial strict weak order that decides at most 48 elements per round forces at least `len^2 / 400` comparisons on any array of
  at least 8000 distinct elements (`par_sort_unstable_quadratic`, C54; `Proof/QuickSlow.lean`).
* The documentation of `par_sort*` (src/lib.rs:153, 209, 256) says that it allocates half the size of the array.  It allocates `len` elements
  (par/merge_sort.rs:846) and overwrites all of them unless the array is in few runs (`par_sort_fills_buffer`, C73).  For at most 2000
  elements half the size would do, and the other half is never accessed (`par_sort_half_buffer`, C87).
* Because bad pivots are not counted, the nested calls of `recurse` in `par_sort_unstable*` are linear in number (`par_sort_unstable_deep`, C67), about one for
  every 48 elements.  With the feature `stacker` (default) `maybe_grow` moves the stack to the heap; without it the stack can overflow.
* A sorted array of more than 2000 elements whose last chunk has exactly one element is not left alone by `par_sort*`: the merge sort of a chunk of
  one element answers `Sorted` instead of `NonDescending`, so the chunk is not concatenated but merged, which copies the array to the buffer and
  back (`par_sort_single_fills_buffer`, `par_sort_sorted_single_copied`, C73; the result is right by C27, and `par_sort_adaptive` bounds the comparisons).  `par_sort_already_sorted` (C35)
  and `par_sort_descending` (C60) therefore exclude these lengths.
