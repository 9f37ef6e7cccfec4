# Formal model of visionworkbench in Lean 4

## 1. What this is

`/verif/lean/Verif` holds a Lean 4 model of parts of visionworkbench (`/repo`, read as text, never run) and
machine-checked theorems about that model. `properties.jsonl` lists the semantic properties in English,
`MANIFEST.json` maps each to theorems, `seeded/LOG.jsonl` records the wrong programs the theorems were tried
against, `AXIOMS.md` the axioms each claimed theorem depends on.

Layout, per subsystem: `Model.lean` or `<Name>.lean` has the definitions, transcribed from the C++ function by
function, each citing file and lines; `Props.lean` or `<Name>Props.lean` has the specification (small definitions
stated without the model's helpers), the lemmas, the property theorems, and concrete cases meeting their hypotheses.

## 2. Trusted base

* Lean 4.33.0's kernel, and the axioms `propext`, `Classical.choice`, `Quot.sound` only (`AXIOMS.md` lists them per
  theorem; no axioms of our own and no proof by compiled code).
* Mathlib definitions used in statements (ordered fields, `Finset` sums, matrices and determinant, floor).
* Faithfulness of the transcription from C++ to Lean. Nothing was executed; each definition cites its lines.
* Modelling conventions:
  * `int`, `int32`, `size_t` are `Int`/`Nat` without overflow unless the property is about overflow;
    then `BitVec`/explicit modular arithmetic is used and the definition says so.
  * C++ `/` and `%` on signed integers are `Int.tdiv`, `Int.tmod` (truncation towards zero).
  * `float`/`double` are exact numbers (`Rat` or any linearly ordered field), except in C62, where rounding to
    single and double precision is modelled. No other theorem says anything about rounding, NaN or infinities.
  * exceptions (`vw_throw`, failing `VW_ASSERT`) and undefined behaviour are explicit outcomes
    (`Except`/`Option`/an error constructor), or the theorem has a guard that excludes them.
  * concurrency: threads are interleaved at the granularity of critical sections/lock operations (sequential
    consistency). Fairness is stated where a liveness theorem needs it. Memory ordering is not modelled.


## 3. Properties: what is modelled, how it is proved

Generated by `tools/design.py` from `properties.jsonl` and `MANIFEST.json` (English statements are in the former). A property whose English statement is false of the code is `partial`: the true part is proved and the false part refuted by a concrete case.


### C01 Cache bookkeeping tracks every live line exactly once (proved)

* Code: `src/vw/Core/Cache.h`; `src/vw/Core/Cache.cc`; `Cache::validate`; `Cache::invalidate`; `Cache::remove`; `Cache::deprioritize`; `Cache::allocate`; `Cache::deallocate`
* Model and proofs: `Cache/Props.lean`
* Method: heap of nodes with `prev/next` ids and the three list heads; validate/invalidate/remove/deprioritize pointer by pointer. Representation predicate (heap stands for two lists), each pointer operation refines a list operation, induction over histories
* Theorems: `Cache.cache_lists_intact`, `Cache.cache_no_ub`
* Limits: Every history of legal operations keeps both lists well formed, disjoint and complete; no null/dangling link is followed.

### C02 Cache size accounting is exact (partial)

* Code: `src/vw/Core/Cache.h`; `src/vw/Core/Cache.cc`; `Cache::allocate`; `Cache::deallocate`; `CacheLine::value`; `CacheLine::invalidate`
* Model and proofs: `Cache/Props.lean`
* Method: sequential cache machine (lines with size, value, pins, wedged flag; eviction loop of allocate). Accounting invariant by induction over histories; a throwing generator is the counterexample
* Theorems: `Cache.cache_size_exact`, `Cache.cache_size_exact_partial`, `Cache.cache_size_leak`
* Limits: False as stated: a generator exception leaves a charged line (cache_size_leak). Proved: the size equals loaded bytes plus wedged lines; exact when no generator has thrown.

### C03 Cache memory bound (partial)

* Code: `src/vw/Core/Cache.h`; `src/vw/Core/Cache.cc`; `Cache::allocate`
* Model and proofs: `Cache/Props.lean`
* Method: same machine; post-condition of the eviction loop by induction on its steps
* Theorems: `Cache.cache_bound_after_miss`, `Cache.cache_bytes_after_miss_partial`, `Cache.cache_bound_fails_on_hit`
* Limits: Bound holds after every miss (up to lines that are held); refuted on a hit after a resize-down blocked by held lines.

### C04 A held object is never evicted (proved)

* Code: `src/vw/Core/Cache.h`; `src/vw/Core/Cache.cc`; `CacheLine::value`; `CacheLine::try_invalidate`; `CacheLine::release`
* Model and proofs: `Cache/Props.lean`
* Method: same machine; pinned lines are never chosen by the eviction loop, invariant over histories
* Theorems: `Cache.held_line_stays`

### C05 Dereferencing a handle yields the generated object (proved)

* Code: `src/vw/Core/Cache.h`; `src/vw/Core/Cache.cc`; `CacheLine::value`; `Cache::Handle::operator->`; `Cache::Handle::operator*`
* Model and proofs: `Cache/Props.lean`
* Method: same machine; invariant: loaded value = value of the generator
* Theorems: `Cache.deref_returns_generated`, `Cache.generator_called_only_on_miss`

### C06 Eviction order (partial)

* Code: `src/vw/Core/Cache.h`; `src/vw/Core/Cache.cc`; `Cache::allocate`; `CacheLine::value`
* Model and proofs: `Cache/Props.lean`
* Method: same machine; list order = order of generation, invariant; witness against LRU
* Theorems: `Cache.lru_refuted`, `Cache.eviction_order_partial`
* Limits: LRU is refuted; the actual order is proved.

### C07 resize enforces the new limit (proved)

* Code: `src/vw/Core/Cache.h`; `src/vw/Core/Cache.cc`; `Cache::resize`
* Model and proofs: `Cache/Props.lean`
* Method: same machine; loop post-condition
* Theorems: `Cache.resize_enforces_limit`

### C08 Concurrent misses keep the accounting exact (partial)

* Code: `src/vw/Core/Cache.h`; `src/vw/Core/Cache.cc`; `CacheLine::value`
* Model and proofs: `Cache/Race.lean`
* Method: interleavings of CacheLine::value of n threads at lock-operation granularity; concrete schedule against, invariant for schedules without overlapping misses
* Theorems: `Cache.Race.concurrent_miss_refuted`, `Cache.Race.concurrent_miss_partial`
* Limits: Two overlapping misses generate twice / charge twice (refuted); true for non-overlapping misses.

### C09 Handle lock discipline (partial)

* Code: `src/vw/Core/Cache.h`; `src/vw/Core/Cache.cc`; `Cache::Handle`; `CacheLine::release`; `CacheLine::~CacheLine`
* Model and proofs: `Cache/Handle.lean`
* Method: handle/lock counter machine; invariant for disciplined clients, witnesses otherwise
* Theorems: `Cache.Handles.handle_lock_discipline_partial`, `Cache.Handles.double_deref_hangs`, `Cache.Handles.copy_locked_double_release`, `Cache.Handles.reset_locked_hangs`
* Limits: Refuted in general by three witnesses; proved for disciplined clients.

### C10 Thread pool concurrency limit (proved)

* Code: `src/vw/Core/ThreadPool.h`; `src/vw/Core/ThreadPool.cc`; `WorkQueue::notify`; `WorkQueue::worker_thread_complete`
* Model and proofs: `Pool/Props.lean`
* Method: labelled transition system of FifoWorkQueue/WorkQueue (add, notify, start, run, finish, fetch, join, kill); inductive invariant over reachable states
* Theorems: `Pool.pool_concurrency_limit`
* Limits: A terminating worker that has already signed off may briefly share its slot number with its successor; stated in the theorem.

### C11 Thread pool runs every task exactly once (proved)

* Code: `src/vw/Core/ThreadPool.h`; `src/vw/Core/ThreadPool.cc`; `FifoWorkQueue::add_task`; `FifoWorkQueue::get_next_task`; `WorkQueue::WorkerThread::operator()`
* Model and proofs: `Pool/Props.lean`
* Method: same system; multiset invariant queued + running + done = added
* Theorems: `Pool.fifo_tasks_accounted`, `Pool.fifo_runs_once`

### C12 FIFO start order (partial)

* Code: `src/vw/Core/ThreadPool.h`; `src/vw/Core/ThreadPool.cc`; `FifoWorkQueue::get_next_task`
* Model and proofs: `Pool/Props.lean`
* Method: same system; order invariant; witness for two threads
* Theorems: `Pool.fifo_dispatch_order`, `Pool.fifo_start_order_partial`, `Pool.fifo_start_order_refuted`
* Limits: Tasks are handed to workers in FIFO order (proved, any number of threads); entry into the task body is in order only with one thread, refuted for two.

### C13 join_all waits for all work (proved)

* Code: `src/vw/Core/ThreadPool.h`; `src/vw/Core/ThreadPool.cc`; `WorkQueue::join_all`
* Model and proofs: `Pool/Props.lean`
* Method: same system; safety invariant, and liveness by a measure that each step of any schedule decreases
* Theorems: `Pool.join_returns_idle`, `Pool.join_returns_all_finished`, `Pool.join_blocks_while_running`, `Pool.join_blocks_while_queued`, `Pool.join_all_terminates`
* Limits: Safety and liveness (under any schedule; tasks assumed to terminate without throwing).

### C14 kill_and_join terminates (partial)

* Code: `src/vw/Core/ThreadPool.h`; `src/vw/Core/ThreadPool.cc`; `WorkQueue::kill_and_join`; `WorkQueue::WorkerThread::operator()`
* Model and proofs: `Pool/Props.lean`
* Method: same system; reachable deadlocked state; measure when the queue is empty
* Theorems: `Pool.kill_and_join_hangs`, `Pool.no_join_after_quit`, `Pool.kill_and_join_terminates_partial`
* Limits: Refuted when a task is queued; proved when the queue is empty.

### C15 OrderedWorkQueue runs tasks in index order (partial)

* Code: `src/vw/Core/ThreadPool.h`; `src/vw/Core/ThreadPool.cc`; `OrderedWorkQueue::add_task`; `OrderedWorkQueue::get_next_task`
* Model and proofs: `Pool/Ordered.lean`
* Method: OrderedWorkQueue system: invariant on the next expected index
* Theorems: `Pool.ordered_dispatch_order`, `Pool.ordered_no_gap`, `Pool.ordered_start_order_partial`, `Pool.ordered_start_order_refuted`, `Pool.ordered_completes`, `Pool.ordered_stale_blocks`, `Pool.ordered_latest_wins`
* Limits: Hand-out order and completeness proved; the order of entry into the tasks is refuted for two threads.

### C16 ThreadQueue is a linearizable FIFO (proved)

* Code: `src/vw/Core/ThreadQueue.h`; `ThreadQueue`
* Model and proofs: `TQueue/Props.lean`
* Method: mutex-protected queue with a set of waiting threads; invariant popped ++ queue = pushed
* Theorems: `TQueue.tqueue_fifo`, `TQueue.tqueue_popped_sublist`, `TQueue.tqueue_wakes`, `TQueue.tqueue_pop_front`

### C17 Log rules: latest matching rule decides (proved)

* Code: `src/vw/Core/Log.cc`; `LogRuleSet::add_rule`; `LogRuleSet::operator()`
* Model and proofs: `Log/Props.lean`
* Method: rule lists; direct, with a specification by the last matching rule
* Theorems: `Log.latest_rule_decides`, `Log.default_rules`, `Log.rejected_rule_ignored`
* Limits: The default for 'console' compares the namespace case-sensitively although rules are case-insensitive.

### C18 Log wildcard semantics (proved)

* Code: `src/vw/Core/Log.cc`; `wildcard_match`; `LogRuleSet::add_rule`
* Model and proofs: `Log/Props.lean`
* Method: wildcard matching on `List Char`; equivalence with the inductive meaning of patterns
* Theorems: `Log.wildcard_semantics`, `Log.accepted_iff`

### C19 Box crop is set intersection (proved)

* Code: `src/vw/Math/BBox.h`; `src/vw/Math/BBox.tcc`; `BBox::crop`; `BBox::intersects`; `BBox::contains`
* Model and proofs: `BBox/Props.lean`
* Method: n-dimensional boxes `Fin n → α` over any linear order; membership characterisations
* Theorems: `BBox.crop_is_intersection`, `BBox.intersects_iff`, `BBox.containsBox_subset`, `BBox.containsBox_iff_int`, `BBox.containsBox_iff_dense`, `BBox.empty_iff_no_point`
* Limits: All dimensions, any linear order; no rounding.

### C20 Box grow is the least enclosing box (partial)

* Code: `src/vw/Math/BBox.h`; `src/vw/Math/BBox.tcc`; `BBox::grow`; `BBox::BBox()`
* Model and proofs: `BBox/Props.lean`
* Method: same; least upper bound by induction over points; witnesses for sentinel values
* Theorems: `BBox.grow_least`, `BBox.grow_order_irrelevant`, `BBox.growBox_least`, `BBox.grow_default_least`, `BBox.grow_default_point`, `BBox.grow_default_out_of_range`, `BBox.grow_degenerate_lost`
* Limits: Proved for points within +-(2^31-2) and for growing by non-empty boxes. Two parts of the English claim are false of the code and refuted: points beyond the sentinel range (grow_default_out_of_range) and growing by a box that holds a single point, which grow(bbox) skips (grow_degenerate_lost).

### C21 Default box is empty and neutral (partial)

* Code: `src/vw/Math/BBox.h`; `src/vw/Math/BBox.tcc`; `BBox::BBox()`; `BBox::empty`
* Model and proofs: `BBox/Props.lean`
* Method: same; wrap-around instance for unsigned coordinates refutes
* Theorems: `BBox.default_neutral`, `BBox.default_uint32_not_empty`
* Limits: Proved for signed and floating coordinates; refuted for BBox<uint32>: the default box wraps around and is not empty.

### C22 Box algebra: translate, expand, contract, scale (proved)

* Code: `src/vw/Math/BBox.h`; `src/vw/Math/BBox.tcc`; `BBox::operator+=`; `BBox::expand`; `BBox::contract`; `BBox::operator*=`
* Model and proofs: `BBox/Props.lean`
* Method: same over ordered rings and fields; set equalities
* Theorems: `BBox.translate_mem`, `BBox.translate_cancel`, `BBox.expand_mem`, `BBox.contract_expand`, `BBox.scale_mem`, `BBox.scale_div_cancel`, `BBox.elemProd_mem`, `BBox.extent_laws`, `BBox.area_laws`, `BBox.empty_unchanged`
* Limits: Exact arithmetic over any ordered ring/field; overflow and rounding are not modelled. contract undoes expand for a non-negative offset.

### C23 grow_bbox_to_int encloses (proved)

* Code: `src/vw/Math/BBox.h`; `src/vw/Math/BBox.tcc`; `grow_bbox_to_int`
* Model and proofs: `BBox/Props.lean`
* Method: same over fields with floor
* Theorems: `BBox.growToInt_encloses`, `BBox.growToInt_empty`
* Limits: Over any ordered field with floor; boxes within int32, casts exact.

### C24 Block processor visits every pixel exactly once (proved)

* Code: `src/vw/Image/BlockProcessor.h`; `BlockProcessor::operator()`; `BlockThread::Info::advance`; `BlockThread::Info::round_down`
* Model and proofs: `Block/Cover.lean`
* Method: cursor state machine of the block iterator and BlockProcessor, schedules as arbitrary distributions of calls to threads; k-th box characterised, bijection with grid cells
* Theorems: `Block.blocks_disjoint_inside`, `Block.blocks_cover`, `Block.blocks_terminate`, `Block.blocks_returns`
* Limits: All boxes (negative, empty, inverted), block sizes, thread counts >= 1 and schedules; integers unbounded. Termination assumes the functor returns.

### C25 Each processed block stays inside one grid cell (proved)

* Code: `src/vw/Image/BlockProcessor.h`; `BlockGeneratorManager::get_block_index`; `BlockGeneratorManager::initialize`
* Model and proofs: `Block/Cover.lean`, `Block/Raster.lean`
* Method: integer arithmetic of the block index maps
* Theorems: `Block.block_in_one_cell`, `Block.block_index_right`, `Block.lookup_exact`, `Block.empty_width_index_out_of_range`
* Limits: For non-empty boxes. A zero-width request at the right edge yields an out-of-range block index (empty_width_index_out_of_range).

### C26 Block rasterization is transparent (proved)

* Code: `src/vw/Image/BlockRasterize.h`; `BlockRasterizeView::operator()`; `BlockRasterizeView::rasterize`; `BlockRasterizeView::RasterizeFunctor`; `src/vw/Image/BlockProcessor.h`
* Model and proofs: `Block/Props.lean`, `Block/Raster.lean`
* Method: composition of the block cache with the cache machine, pixel-level interleavings; invariant over histories
* Theorems: `Block.block_cache_transparent`, `Block.block_rasterize_transparent`, `Block.rasterize_safe`, `Block.rasterize_transparent`, `Block.prerasterize_transparent`, `Block.read_transparent`, `Block.read_total`
* Limits: Composed with the cache model (call-atomic cache calls), pixel-level interleaving of threads and arbitrary cache calls by others. The child image is a fixed function; its own rasterize is modelled by its contract. Boxes within the image.

### C27 Edge extension agrees with the image inside and never reads outside (partial)

* Code: `src/vw/Image/EdgeExtension.h`; `src/vw/Image/EdgeExtension.tcc`; `ZeroEdgeExtension`; `ConstantEdgeExtension`; `PeriodicEdgeExtension`; `CylindricalEdgeExtension`; `ReflectEdgeExtension`; `LinearEdgeExtension`
* Model and proofs: `Edge/Props.lean`
* Method: index maps of each edge extension transcribed with C++ division; case analysis over integers
* Theorems: `Edge.eval_inside_partial`, `Edge.zero_spec`, `Edge.value_spec`, `Edge.constant_spec`, `Edge.periodic_spec`, `Edge.cylindrical_spec`, `Edge.reflect_spec_partial`, `Edge.linear_spec_partial`, `Edge.linear_exact_on_affine`, `Edge.linear_inside`, `Edge.periodic_unique`, `Edge.mirrored_unique`, `Edge.view_read`, `Edge.reflect_one_pixel_undefined`, `Edge.linear_one_column_undefined`
* Limits: All modes, sizes and coordinates, exact arithmetic. Missing: the property is false of the code for reflect on an image one pixel wide or high (division by zero) and for linear on one (reads outside), proved as such; otherwise complete.

### C28 Edge extension source box is sufficient (partial)

* Code: `src/vw/Image/EdgeExtension.h`; `src/vw/Image/EdgeExtension.tcc`; `source_bbox`
* Model and proofs: `Edge/Props.lean`
* Method: `source_bbox` transcribed; integer case analysis
* Theorems: `Edge.sourceBBox_in_image_partial`, `Edge.sourceBBox_enough_partial`, `Edge.prerasterize_read_partial`, `Edge.prerasterize_total_partial`, `Edge.linear_one_column_source_outside`
* Limits: All modes and non-empty boxes, images with at least 2 columns and rows for reflect and linear, at least one pixel otherwise. Missing: false for linear on one-column images (proved).

### C29 Disjoint sets implement the generated equivalence (proved)

* Code: `src/vw/Math/DisjointSet.h`; `DisjointSet`
* Model and proofs: `Graph/DSetProps.lean`
* Method: disjoint sets as a heap with parent pointers and ranks; invariant: the forest represents the equivalence generated by the history
* Theorems: `Graph.find_iff_connected`, `Graph.find_representative`, `Graph.find_changes_nothing`, `Graph.find_total`, `Graph.find_compresses`, `Graph.combine_rejects`, `Graph.insertIn_rejects`, `Graph.null_rejects`, `Graph.combine_null_right`, `Graph.valid_iff_own_find`, `Graph.combine_result`, `Graph.findVal_spec`, `Graph.never_hangs`, `Graph.exHist`
* Limits: All histories of insert, insert-into-set, combine, find and find-by-value. Dangling pointers are undefined behaviour (response ub) and excluded. Unbounded ranks.

### C30 Minimum spanning tree is a minimum spanning forest (partial)

* Code: `src/vw/Math/MinimumSpanningTree.cc`; `MinimumSpanningTree::MinimumSpanningTree`
* Model and proofs: `Graph/Mst.lean`
* Method: Kruskal loop over the sorted edges; exchange argument for minimality
* Theorems: `Graph.mst_minimal_partial`, `Graph.mst_minimal_nonneg_partial`, `Graph.mst_ctor_may_reject`, `Graph.mst_ctor_empty_unchecked`
* Limits: Full property for every non-empty edge list, for any result of qsort with the cost comparison, costs in any ordered additive monoid (no NaN, exact sums), on the assumption that the uninitialised member tested by the constructor happens to be positive. Missing: without that assumption the constructor may throw (mst_ctor_may_reject), proved as such.

### C31 Bresenham line tracing (proved)

* Code: `src/vw/Math/BresenhamLine.h`; `BresenhamLine`
* Model and proofs: `Line/Props.lean`
* Method: Bresenham iterator state machine; closed form of the error term by induction
* Theorems: `Line.visits_exactly`, `Line.starts_and_stops`, `Line.near_line`, `Line.inside_box`, `Line.reversed_line_drops_start`
* Limits: All integer end points. Integers are unbounded (int32 in the code). reversed_line_drops_start: when the line runs backwards along its major axis the trace starts at `stop` and never visits `start`, contrary to the header comment.

### C32 Integral image block sums (proved)

* Code: `src/vw/InterestPoint/IntegralImage.h`; `src/vw/InterestPoint/IntegralImage.cc`; `IntegralImage`; `IntegralBlock`
* Model and proofs: `Integral/Props.lean`
* Method: row-major fill loop over a field; loop invariant (prefix sums)
* Theorems: `Integral.table_spec`, `Integral.table_in_bounds`, `Integral.block_sum`
* Limits: All image sizes and contents, all blocks inside the image, arbitrary content of the fresh buffer. Exact arithmetic in any field instead of float.

### C33 UTM zone (partial)

* Code: `src/vw/Cartography/Utm.cc`; `getUTMZone`; `getLongitudeZone`; `getLatitudeBand`
* Model and proofs: `Utm/Props.lean`
* Method: rational longitudes and latitudes; case analysis against the standard table
* Theorems: `Utm.zone_standard_partial`, `Utm.zone_regular`, `Utm.zone_range`, `Utm.wrap_spec`, `Utm.band_total`, `Utm.band_X`, `Utm.band_V`, `Utm.band_top`, `Utm.zone_61`, `Utm.svalbard_north_wrong`, `Utm.svalbard_wrapped_wrong`, `Utm.norway_wrapped_wrong`
* Limits: Proved on latitudes [-80,80) x longitudes [-180,180), and for all longitudes outside the exceptional bands except 180 modulo 360. The rest of the claim is false of the code and refuted: zone 61 at 180E, exceptions ignored north of 80N, exceptions applied to the un-normalised longitude. Rational coordinates (no rounding).

### C34 Quadtree tiles partition the region (partial)

* Code: `src/vw/Mosaic/QuadTreeGenerator.cc`; `src/vw/Mosaic/QuadTreeGenerator.h`; `default_branch_func`; `get_tree_levels`
* Model and proofs: `Quad/Props.lean`, `Quad/Tree.lean`
* Method: quad tree generator: branch function on boxes, recursion over levels, paths, tile contents; induction over depth
* Theorems: `Quad.root_covers`, `Quad.root_region_covers`, `Quad.branch_partition`, `Quad.branch_leaf`, `Quad.branch_names`, `Quad.simplePath_injective`, `Quad.tieredPath_injective`, `Quad.namedTieredPath_injective_partial`, `Quad.namedTieredPath_collision`, `Quad.boxFilter_value`, `Quad.level_cover`, `Quad.gen_square`, `Quad.generate_names`, `Quad.generate_cover`, `Quad.generate_content`, `Quad.write_crop`, `Quad.generate_crop`, `Quad.write_crop_leaf`, `Quad.cull_loses_data`, `Quad.odd_tiles_fail`
* Limits: Proved: levels, partition at every split and level, names, simple and tiered paths, and for even tile sizes (or one level) the content of every tile as a box mean. False parts proved as discrepancies: named tiered paths collide for a tree called like a tile; odd tile sizes other than 3 always throw when there is more than one level; cropping/culling drops coarse tiles whose data is narrower than a pixel. Exact arithmetic and real logarithms; user-supplied branch functions are not modelled.

### C35 VarArray behaves like a vector (proved)

* Code: `src/vw/Core/VarArray.h`; `VarArray`
* Model and proofs: `Core/VarArray.lean`
* Method: programs over variables with shared/owned storage refine programs over lists; simulation
* Theorems: `VarArray.run_refines`, `VarArray.step_rel`, `VarArray.resized_spec`, `VarArray.resized_clear`, `VarArray.resize_same_keeps`
* Limits: Every program over VarArray variables refines the same program over lists (no sharing, resize keeps the prefix). Finding: resize to the same size without preserve clears nothing (resize_same_keeps), the specification says so.

### C36 string_replace replaces all occurrences (partial)

* Code: `src/vw/Core/StringUtils.cc`; `string_replace`
* Model and proofs: `Core/StringUtils.lean`
* Method: character list functions; induction over the string
* Theorems: `StringUtils.string_replace_partial`, `StringUtils.returns_unique`, `StringUtils.string_replace_char`, `StringUtils.separate_spec`, `StringUtils.string_replace_diverges`, `StringUtils.string_replace_misses`, `StringUtils.string_replace_again`
* Limits: Left-to-right replacement proved when no occurrence can begin inside a replacement; in general it is false of the code (runs for ever, replaces inside replacements, misses adjacent ones): the counterexamples are theorems. Number parsing of str_to_vec not modelled.

### C37 Median and outlier brackets (partial)

* Code: `src/vw/Math/Statistics.h`; `median`; `find_outlier_brackets`
* Model and proofs: `Stats/Acc.lean`, `Stats/Brackets.lean`, `Stats/Props.lean`
* Method: order statistics over lists; counting specification
* Theorems: `Stats.median_half`, `Stats.median_perm`, `Stats.median_between`, `Stats.destructiveMedian_eq`, `Stats.nmad_spec`, `Stats.percentile_spec`, `Stats.percentile_throws`, `Stats.outlier_brackets`, `Stats.outlier_brackets_sym`, `Stats.outlier_brackets_neg`, `Stats.outlier_brackets_perm`, `Stats.outlier_brackets_few`, `Stats.outlier_brackets_empty`, `Stats.outlier_brackets_inverted`, `Stats.sampleVariance_spec`, `Stats.mean_eq`
* Limits: Exact arithmetic in an ordered field; square roots left out. Brackets proved for fractions up to 1/4; near 1/2 the brackets can be inverted (outlier_brackets_inverted), so the claim for all fractions is false of the code.

### C38 Integer helper functions (partial)

* Code: `src/vw/Math/Functions.h`; `mod`; `nextpow2`; `hamming_distance`; `_round`; `_floor`
* Model and proofs: `IPMatch/Metric.lean`, `Math/Functions.lean`
* Method: integer and field arithmetic
* Theorems: `Functions.mod_spec`, `Functions.mod_eq_emod`, `Functions.mod_in_range`, `Functions.round_spec`, `Functions.round_defined`, `Functions.floor_spec`, `Functions.floor_defined`, `Functions.nextpow2_spec`, `Functions.nextpow2_overflow`, `Functions.hamming_spec`, `Functions.hamming_metric`, `IPMatch.hammingWide_spec`
* Limits: Exact arithmetic for the real-valued arguments (double rounding of x+0.5 not modelled). nextpow2 beyond 2^30 overflows (nextpow2_overflow), so the claim holds up to there only. The 32 and 64 bit Hamming distances use a compiler builtin, taken to count the bits set (hammingWide_spec).

### C39 Progress reporting (partial)

* Code: `src/vw/Core/ProgressCallback.h`; `SubProgressCallback`
* Model and proofs: `Core/Progress.lean`
* Method: tree of monitors; induction over depth and report sequences
* Theorems: `Progress.report_within`, `Progress.progress_report`, `Progress.progress_empty_range`, `Progress.task_monotone`, `Progress.incr_run`, `Progress.incr_order`, `Progress.abort_seen`, `Progress.bar_fits`, `Progress.terminal_finished`
* Limits: All depths, schedules and report sequences, exact arithmetic. The null monitor ignores aborts (stated in abort_seen); a terminal monitor is not set to 1 by report_finished (terminal_finished); the copy constructor is not modelled.

### C40 Generator exceptions leave the cache usable (partial)

* Code: `src/vw/Core/Cache.h`; `Cache::CacheLine::value`; `src/vw/Core/Cache.cc`; `Cache::allocate`
* Model and proofs: `Cache/Faults.lean`, `Cache/Props.lean`
* Method: concrete histories of the cache machine with a throwing generator
* Theorems: `Cache.generator_throw_wedges`, `Cache.cache_size_leak`
* Limits: Refuted: the line stays charged and exclusively locked. Nothing of the positive claim remains beyond C02's wedged accounting.

### C41 Deprioritize is safe against concurrent eviction (partial)

* Code: `src/vw/Core/Cache.h`; `Cache::CacheLine::deprioritize`; `src/vw/Core/Cache.cc`; `Cache::deprioritize`
* Model and proofs: `Cache/Faults.lean`
* Method: concrete interleaving of deprioritize with an eviction
* Theorems: `Cache.deprioritize_race_hangs`, `Cache.deprioritize_atomic_partial`
* Limits: Refuted by a concrete interleaving; true when the call does not interleave with an eviction of that line.

### C42 Destroying a work queue is safe (partial)

* Code: `src/vw/Core/ThreadPool.h`; `src/vw/Core/ThreadPool.cc`; `WorkQueue::~WorkQueue`; `FifoWorkQueue`
* Model and proofs: `Pool/Props.lean`
* Method: concrete interleaving of the destructor with a running worker
* Theorems: `Pool.destructor_race`, `Pool.pool_no_ub_alive`, `Pool.destructor_after_join_partial`
* Limits: Refuted: ~FifoWorkQueue destroys the task list before ~WorkQueue joins. Safe if the pool was joined before.

### C43 Log lines of different threads are not mixed (proved)

* Code: `src/vw/Core/Log.cc`; `PerThreadBufferedStreamBuf`; `overflow`; `xsputn`; `sync`
* Model and proofs: `Log/Props.lean`
* Method: per-thread line buffers; invariant over interleavings
* Theorems: `Log.log_per_thread_order`, `Log.log_lines_not_mixed`, `Log.log_line_output`

### C44 Spanning tree traversal (proved)

* Code: `src/vw/Math/MinimumSpanningTree.cc`; `MinimumSpanningTree::apply`; `MinimumSpanningTree::apply_`
* Model and proofs: `Graph/Apply.lean`
* Method: recursion over the tree built by the constructor, with C30
* Theorems: `Graph.mst_apply`, `Graph.apply_forest`
* Limits: For every tree built by the constructor and every start node. Recursion depth is unbounded in the model (no stack limit); a throwing functor is not modelled.

### C45 Box filters on integral images (proved)

* Code: `src/vw/InterestPoint/IntegralImage.h`; `src/vw/InterestPoint/IntegralImage.cc`; `XSecondDerivative`; `YSecondDerivative`; `XYDerivative`; `HHaarWavelet`; `VHaarWavelet`
* Model and proofs: `Integral/Props.lean`
* Method: wavelets as sums over boxes (C32) compared with their definitions
* Theorems: `Integral.xSecond_spec`, `Integral.ySecond_spec`, `Integral.xyDeriv_spec`, `Integral.hHaar_spec`, `Integral.vHaar_spec`, `Integral.haar_square`, `Integral.haar_even`, `Integral.xSecond_const`
* Limits: Exact arithmetic in any field; the wavelet size is rational. The floating-point coordinate overloads of the wavelets (on interpolated views) are not modelled. xSecond_const shows the bias for even lobes.

### C46 Convolution views (proved)

* Code: `src/vw/Image/Convolution.h`; `ConvolutionView`; `SeparableConvolutionView`
* Model and proofs: `Conv/Props.lean`
* Method: convolution views over exact rings: evaluation = rasterization, by induction over kernel and image
* Theorems: `Conv.conv_eval`, `Conv.conv_prerasterize`, `Conv.sep_eval`, `Conv.sep_prerasterize`, `Conv.sep_paths_agree`, `Conv.mode_shows`, `Conv.sep_paths_differ_rounding`
* Limits: For pixel types that hold the sums exactly. With a rounding pixel type the two paths of the separable view differ (sep_paths_differ_rounding), because rasterization converts the intermediate rows; sep_prerasterize gives the exact value in that case too. Planes are not modelled. mode_shows assumes the minimum image size of the extension mode as in C27.

### C48 Subdividing a bounding box (proved)

* Code: `src/vw/Image/AlgorithmFunctions.cc`; `subdivide_bbox`
* Model and proofs: `View/Subdivide.lean`
* Method: subdivision into boxes: partition by arithmetic and induction
* Theorems: `View.subdivide_partition`, `View.subdivide_inside`, `View.subdivide_full_only`, `View.subdivide_full_size`, `View.full_size_outside`, `View.subdivide_flags`
* Limits: Unbounded integers; block sizes positive. full_size_outside records the discrepancy: an object narrower than a block, full_size requested, yields a box outside the object.

### C47 Lazy view expressions (partial)

* Code: `src/vw/Image/ImageTransform.h`; `src/vw/Image/Manipulation.h`; `src/vw/Image/PerPixelViews.h`; `src/vw/Image/EdgeExtension.h`; `src/vw/Image/PixelAccessors.h`; `src/vw/Image/ImageViewBase.h`; `rasterize`; `SubsampleView::prerasterize`
* Model and proofs: `View/Props.lean`
* Method: view expressions by structural induction: accessor walk, prerasterize contract, requests inside the child
* Theorems: `View.accessor_reads`, `View.raster_reads`, `View.prerasterize_transparent_partial`, `View.rasterize_transparent_partial`, `View.rasterize_inside_partial`, `View.complete_of_inside`, `View.subsample_reads_outside`, `View.subsample_requests_outside`, `View.transpose_transpose`, `View.rot180_rot180`, `View.flipV_flipV`, `View.rot90cw_rot90ccw`, `View.rot90cw_twice`, `View.rot90cw_is_flip_transpose`, `View.crop_crop`, `View.subsample_subsample`, `View.rot90cw_moves`, `View.rot90ccw_moves`
* Limits: All view expressions by induction. Missing: false of the code when the x and y subsampling factors differ (SubsampleView::prerasterize uses the x factor for the height of the child box); refuted by subsample_reads_outside and subsample_requests_outside. One plane; one pixel type; linear/reflect extension of one-pixel-wide images excluded (C27).

### C49 Histograms and running statistics (partial)

* Code: `src/vw/Math/Statistics.cc: Histogram`; `src/vw/Math/Functors.h: MinMaxAccumulator, MeanAccumulator, StdDevAccumulator, StdDevSlidingFunctor`; `src/vw/Image/Statistics.h: EWMinMaxAccumulator, EWStdDevAccumulator`
* Model and proofs: `Stats/Acc.lean`, `Stats/Hist.lean`
* Method: histogram fill, running accumulators; induction over pixels
* Theorems: `Stats.fill_bins`, `Stats.fill_total`, `Stats.init_centers`, `Stats.bin_near`, `Stats.bin_not_containing`, `Stats.percentile_bin`, `Stats.percentile_bin_throws`, `Stats.minMax_spec`, `Stats.meanAcc_spec`, `Stats.varAcc_spec`, `Stats.ewVarU8_wrong`, `Stats.sliding_spec`, `Stats.sliding_poisoned`, `Stats.sliding_pop_last`
* Limits: Exact arithmetic, before square roots. Findings: the bin counted in is not the bin containing the value (bin_not_containing); the channel-typed deviation accumulator wraps (ewVarU8_wrong); popping the only value of the sliding functor spoils it for good (sliding_pop_last), so windows of size 1 are excluded.

### C50 Grassfire distance (partial)

* Code: `src/vw/Image/Grassfire.h: grassfire`
* Model and proofs: `Image/Grassfire.lean`
* Method: two-pass grassfire; distance characterisation by induction over the scan order
* Theorems: `Grassfire.grassfire_spec`, `Grassfire.grassfire_ignore_spec`, `Grassfire.grassfire_thin`
* Limits: Proved for images of at least two rows and columns, all pixels, both modes. Images of one row or column are set to 0 (grassfire_thin), which is not the documented distance. Output type int without overflow.

### C51 Stopwatch (proved)

* Code: `src/vw/Core/Stopwatch.h: Stopwatch`
* Model and proofs: `Core/Stopwatch.lean`
* Method: stop watch state machine; induction over histories
* Theorems: `Stopwatch.stopwatch_spec`, `Stopwatch.stray_stop`
* Limits: Clock readings do not go back and fewer than 2^32 calls. A stop without a start is outside the claim; its effect (later intervals lost) is stray_stop.

### C52 Blob labelling finds exactly the 8-connected components (proved)

* Code: `src/vw/Image/BlobIndex.h: blob::BlobIndex, blob_index`; `src/vw/Image/BlobIndex.cc: BlobCompressed::add_row, shift_x, size, bounding_box, intersects, decompress`
* Model and proofs: `Blob/Props.lean`
* Method: run-length labelling and connected components; invariant over rows, against graph connectivity
* Theorems: `Blob.blobIndex_spec`, `Blob.blobIndex_queries`, `Blob.size_spec`, `Blob.boundingBox_spec`, `Blob.intersects_iff`, `Blob.image_labels_not_blobs`, `Blob.intersects_gap_refuted`
* Limits: Full constructor (both passes, boost::connected_components modelled as the numbering of components by smallest vertex). Findings: the image returned by blob_index keeps provisional labels (one blob can have several labels); intersects() tests only the hull of each row; an empty image reads pixel (0,0).

### C53 Threaded blob index: same components whatever the tiling and schedule (partial)

* Code: `src/vw/Image/BlobIndex.h: BlobIndexThreaded, BlobIndexTask, wipe_big_blobs`; `src/vw/Image/BlobIndex.cc: absorb, is_on_right, is_on_bottom, refactor, consolidate, ConsolidateAbsorbTask`
* Model and proofs: `Blob/Absorb.lean`, `Blob/Consolidate.lean`, `Blob/Joins.lean`, `Blob/ThreadedProps.lean`
* Method: tiles labelled separately, consolidated over borders in any order of jobs; refinement to C52's specification
* Theorems: `Blob.threaded_spec_partial`, `Blob.threaded_sound`, `Blob.wipeBig_spec`, `Blob.absorb_spec`, `Blob.joins_conn`, `Blob.jobs_perm`, `Blob.threaded_hook_ub`, `Blob.threaded_none_ub`, `Blob.threaded_stale_boxes`, `Blob.threaded_first_ub`, `Blob.absorb_gap_ub`
* Limits: Proved for every image, tile size, order of tiles and jobs, provided reading front() of an empty row list yields some int (threaded_spec_partial), or whenever no undefined behaviour occurs (threaded_sound). The full claim is false of the code and refuted: a hook across a tile border reads front() of an empty list (UB) even single-threaded, an image without valid pixels and more than one tile adds vertex 2^64-1, with a single tile the boxes are not culled, and culling the first blob moves an iterator before begin. Float ceil of the division count and int overflow not modelled.

### C54 Settings: which value a setting has, and that the system cache follows it (partial)

* Code: `src/vw/Core/Settings.cc: Settings, reload_config, set_rc_filename, getters and setters`; `src/vw/Core/ConfigParser.cc: parse_config`; `src/vw/Core/System.cc: vw_system_cache`
* Model and proofs: `Core/SettingsProps.lean`
* Method: settings with polling, parsing, file stamps, API calls and listeners; induction over histories
* Theorems: `Settings.api_holds_partial`, `Settings.disabled_holds`, `Settings.parse_val`, `Settings.cache_size_partial`, `Settings.poll_rate`, `Settings.getter_fixed`, `Settings.reload_depth`, `Settings.reload_eq`, `Settings.api_lost`, `Settings.cache_size_lost`, `Settings.edit_unseen`, `Settings.unreadable_not_retried`, `Settings.logs_twice`
* Limits: Proved for every history: a set value holds while no reload re-reads the file (api_holds_partial); with no vwrc the calls alone decide; values parsed = last line naming the key; cache size = setting while no call to set_system_cache_size re-enters the parser; polling rate. The full claim is false of the code and refuted: the first reload after a call overwrites the API value (api_lost), set_system_cache_size that triggers the read leaves setting and cache different (cache_size_lost), edits are unseen once a value is marked set (edit_unseen), an unreadable file is not retried, log files are added again on each reload. The boost ini reader and number parsing are parameters; concurrency of the settings mutex not modelled.

### C55 Chipper: a cloud is shared out among blocks, no point lost or repeated (proved)

* Code: `src/vw/Cartography/Chipper.cc: Chipper, load, partition, decideSplit, split, finalSplit, emit`; `src/vw/Cartography/Chipper.h: ChipPtRef, ChipRefList`
* Model and proofs: `Carto/ChipperProps.lean`
* Method: recursive partition of a point cloud over sorted index arrays; induction over blocks
* Theorems: `Chipper.chip_spec`, `Chipper.chip_cells`, `Chipper.chip_refused`, `Chipper.load_good`, `Chipper.sift_good`
* Limits: For every cloud with rational coordinates. Partition boundaries are cumulated exactly (the code adds doubles and rounds); NaN coordinates and 32 bit wrap of indices are not modelled; the conversion through the georeference is a total function.

### C56 Sparse skyline matrices: decomposition and solution of linear systems (proved)

* Code: `src/vw/Math/MatrixSparseSkyline.h: MatrixSparseSkyline, sparse_ldl_decomposition, sparse_solve, multi_sparse_solve, sparse_solve_ldl, reorganize, solve_for_skyline`
* Model and proofs: `Math/SkylineProps.lean`
* Method: LDL^T factorisation in skyline storage and both substitutions; loop invariants over an ordered field
* Theorems: `Skyline.solve_posdef`, `Skyline.solve_solves`, `Skyline.multiSolve_posdef`, `Skyline.ldl_factors`, `Skyline.skyline_fits`, `Skyline.get_put`, `Skyline.solveForSkyline_spec`, `Skyline.reorganize_solves`, `Skyline.inverse_spec`
* Limits: Exact field arithmetic (over any ordered field) instead of double; rounding, zero pivots of semi-definite matrices (division by zero) and the boost Cuthill-McKee ordering (any permutation here) are not modelled.

### C57 Interest point and match files: what is written is what is read, and files cut short are refused (partial)

* Code: `src/vw/InterestPoint/MatcherIO.cc: write_ip_record, read_ip_record, write_binary_ip_file, read_binary_ip_file, write_binary_match_file, read_binary_match_file`
* Model and proofs: `IP/MatchIOProps.lean`
* Method: byte-level writers and readers; round trip by induction over records; cut files
* Theorems: `MatchIO.ip_roundtrip`, `MatchIO.match_roundtrip`, `MatchIO.match_sizes`, `MatchIO.cut_partial`, `MatchIO.cut_last`, `MatchIO.cut_header`, `MatchIO.cut_ip`, `MatchIO.cut_accepted`
* Limits: Round trips and the refusal of lists of different length are proved, and that files cut between the sizes and the last record are refused. "Every file cut short is refused" is false of the code: a cut at or in the last record is accepted with a made-up point (cut_last, cut_accepted), a cut in the second size can read as no matches (cut_header, cut_accepted), a .vwip file cut in its size reads as empty (cut_ip). Also refused lists of different length have already emptied the old file (match_sizes).

### C58 Names of interest point and match files: length, directory, and different images giving different files (partial)

* Code: `src/vw/InterestPoint/MatcherIO.cc: match_filename, ip_filename, shorten_vwip_name, clean_match_filename, strip_path, shortenName, capPrefixBase, fnv1a64Hex`
* Model and proofs: `IP/NamesProps.lean`
* Method: file-name functions on byte strings; FNV hash as 64-bit modular arithmetic
* Theorems: `Names.match_short`, `Names.ip_short`, `Names.vwip_short`, `Names.clean_spec`, `Names.match_plain`, `Names.strip_prefix`, `Names.strip_other`, `Names.shorten_distinct`, `Names.shorten_one`, `Names.shorten_collides`, `Names.ip_distinct`, `Names.match_distinct_partial`, `Names.match_collides`, `Names.strip_inside`
* Limits: Length, directory, unchanged short names, prefix stripping: proved for all strings. Distinctness: proved for names that fit and have no "__" in the first name, for shortened names with different hashes, and for names that differ in one byte (the FNV hash then always differs). Refuted in general: match_collides ("a__b","c" and "a","b__c" share a match file), shorten_collides (the comment "distinct names stay distinct" fails for the shortened name itself), and the prefix is stripped wherever it occurs (strip_inside).

### C59 Block matching returns the best disparity in the search range (proved)

* Code: `src/vw/Stereo/Correlation.cc: calc_disparity, best_of_search_convolution`; `src/vw/Stereo/Algorithms.h: fast_box_sum`; `src/vw/Stereo/CostFunctions.h: AbsoluteCost, SquaredCost, NCCCost`
* Model and proofs: `Stereo/CorrelationProps.lean`
* Method: box sums, cost functions and best-disparity search; loop invariants
* Theorems: `Corr.disparity_best`, `Corr.even_refused`, `Corr.single_invalid`, `Corr.copy_found`, `Corr.ncc_le_one`, `Corr.ncc_copy`, `Corr.ncc_found`
* Limits: Any ordered field in place of double (real numbers for cross correlation); rounding, NaN from all-zero windows, regions smaller than the kernel (only a debug assertion) and images accessed outside of their extent are not modelled. single_invalid: with a search range of one disparity every pixel is invalid, as the code marks pixels whose best and worst scores agree.

### C60 subdivide_regions lists disjoint search regions that cover every disparity (proved)

* Code: `src/vw/Stereo/Correlation.cc: subdivide_regions`; `src/vw/Image/Statistics.h: EWMinMaxAccumulator`; `src/vw/Math/BBox.tcc: grow, expand, crop`
* Model and proofs: `Stereo/SubdivideProps.lean`
* Method: recursive subdivision of search regions; induction over the recursion
* Theorems: `Subdivide.subdivide_spec`
* Limits: The comparison of work estimates is left arbitrary, which includes its int32 overflow. Coordinates are unbounded integers; disparities equal to the sentinel values of an empty BBox2i are covered by the proof as they are in the code (integers).

### C61 Converting image buffers puts every channel in its place and touches nothing else (partial)

* Code: `src/vw/Image/ImageResource.cc: convert, can_convert`; `src/vw/Image/ImageResource.h: ImageBuffer`; `src/vw/Image/PixelTypeInfo.cc: num_channels, channel_size`
* Model and proofs: `Image/ConvertUser.lean`, `Image/Rescale.lean`
* Method: pixel format conversion tables; case analysis and loops over pixels
* Theorems: `Convert.convert_copies`, `Convert.convert_core`, `Convert.convert_alpha`, `Convert.graya_to_opaque`, `Convert.channels_to_planes`, `Convert.planes_to_channels`, `Convert.write_read`, `Convert.packed_separate`, `Convert.cropped_separate`, `Convert.convert_iff_can`, `Convert.opaque_greatest`, `Convert.mean_of_three`, `Convert.rgba_alpha_ignored`, `Convert.rgb_divided_by_blue`, `Convert.planes_not_rescaled`, `Convert.planes_unchecked`, `Convert.alpha_examples`, `Convert.can_convert_unknown`
* Limits: The full claim is false of the code, and refuted by rgba_alpha_ignored, rgb_divided_by_blue, planes_not_rescaled, planes_unchecked and can_convert_unknown: the test for alpha in the source looks at the destination for RGBA, so alpha of RGBA that is not premultiplied is dropped when going to RGB or gray, and RGB going to RGBA that is not premultiplied is divided by blue; rescale is forgotten between planes and channels; the number of planes of the destination is not checked; can_convert accepts two equal unknown formats. Addresses and strides are in channels; source and destination memories are separate.

### C62 Rescaled and premultiplied channels stay what they were (partial)

* Code: `src/vw/Image/ImageResource.cc: channel_convert_uint8_to_uint16, channel_convert_uint16_to_uint8, channel_convert_int_to_float, channel_convert_float_to_int, channel_premultiply_int, channel_unpremultiply_int`
* Model and proofs: `Image/Rescale.lean`
* Method: channel rescaling with IEEE single/double rounding as functions on rationals
* Theorems: `Convert.u8_u16_u8`, `Convert.rescale_within_one`, `Convert.u8_float_u8`, `Convert.premul_near`, `Convert.premul_ends`, `Convert.unpremul_premul`, `Convert.rescale_loses`, `Convert.rescale_negative`, `Convert.one_to_int64`
* Limits: The claim about rescaling is false of the code: float to integer truncates, so 33 comes back from double as 32 and the uint16 value 1 from float as 0 (rescale_loses); negative values come back as 0 (rescale_negative); 1.0 to int64 overflows (one_to_int64). Proved: uint8 through uint16 and through float is exact, everything else is at most one less. Floating point numbers are rationals rounded to 24 or 53 bits, without infinities and subnormal numbers.

### C63 Semi-global matching: the cost along a path is the least energy of the disparities along it (partial)

* Code: `src/vw/Stereo/SGM.cc: SemiGlobalMatcher::evaluate_path, populate_adjacent_disp_lookup_table, set_parameters`; `src/vw/Stereo/SGMAssist.h: PixelPassTask`
* Model and proofs: `Stereo/SGMEval.lean`, `Stereo/SGMPath.lean`, `Stereo/SGMProps.lean`
* Method: semi-global path recurrence: dynamic programming equals the minimum over all label sequences
* Theorems: `SGM.path_optimal`, `SGM.path_optimal_nested`, `SGM.path_not_optimal`, `SGM.evaluate_spec`, `SGM.evaluate_restart`, `SGM.evaluate_bound`, `SGM.pathCost_bound`, `SGM.stretch_start`, `SGM.sse_agrees`, `SGM.evaluate_buffer`, `SGM.lookup_spec`, `SGM.nbr_all`, `SGM.defaults_ok`
* Limits: The full claim is false when search ranges change along the line: the value for a missing disparity, 255 + p2, is not above every path cost, and jump penalties get lost (path_not_optimal). Proved: the claim when each range has the disparities of the one before, in particular for constant ranges (path_optimal_nested), and in general whenever some disparity of each pixel leaves room for a jump (path_optimal). MGM (task_* of SGMAssist.h) and subpixel fitting are not modelled; the eight SSE lanes are modelled one at a time.

### C64 Semi-global matching: threads never touch the same pixel and the accumulated cost is the sum over the eight directions (proved)

* Code: `src/vw/Stereo/SGM.cc: accum_sgm_multithread, calc_main_buf_size`; `src/vw/Stereo/SGMAssist.h: PixelPassTask::update_accum_buffer, OneLineBuffer::one_buf_size`; `src/vw/Image/PixelIterator.h: PixelLineIterator`
* Model and proofs: `Stereo/SGMLines.lean`, `Stereo/SGMProps.lean`
* Method: scan lines of all directions: each pixel exactly once per direction; bounds of accumulated costs
* Theorems: `SGM.dirPixels_nodup`, `SGM.mem_dirPixels`, `SGM.dirPixels_perm`, `SGM.on_line`, `SGM.on_one_line`, `SGM.lineLength_spec`, `SGM.accum_sum`, `SGM.defaults_ok`, `SGM.buffer_disjoint`, `SGM.line_fits`, `SGM.accum_overflow`
* Limits: Additions to one element by one task are taken as atomic: no two tasks of a direction share an element (dirPixels_nodup), and directions are separated by join_all. accum_overflow shows that p2 = 8000 does overflow. int overflow of sizes is not modelled.

### C65 Semi-global matching: a pixel gets the best disparity of its search range (partial)

* Code: `src/vw/Stereo/SGM.cc: select_best_disparity, create_disparity_view, disp_index_to_xy, populate_constant_disp_bound_image, populate_disp_bound_image`
* Model and proofs: `Stereo/SGMProps.lean`, `Stereo/SGMSelect.lean`
* Method: choice of disparity, sub-range construction; case analysis and loop invariants
* Theorems: `SGM.choose_in_range`, `SGM.choose_best`, `SGM.index_inverse`, `SGM.index_of_disp`, `SGM.prior_spec`, `SGM.prior_wf`, `SGM.mask_spec`, `SGM.tie_picks_worst`, `SGM.prior_out_of_reach`
* Limits: False for ties: smoothing the costs 0, 5, 0 makes the middle one, the worst, the choice (tie_picks_worst). A single best disparity is always chosen (choose_best). Ranges are in order if twice the earlier disparity is within the buffer of the search range (prior_wf); otherwise the number of disparities is negative (prior_out_of_reach). The shrinking of ranges to save memory (constrain_disp_bound_image) and the scans for the valid right region are not modelled.

### C66 Matrix inverse and determinant (partial)

* Code: `src/vw/Math/Matrix.h: inverse, det, matrix_to_vector, vector_to_matrix`; `src/vw/Math/Vector.h: index_norm_inf`
* Model and proofs: `Math/InverseProps.lean`
* Method: LU decomposition with partial pivoting; invariants PA = LU; determinant against Mathlib's
* Theorems: `Matrix.inverse_correct`, `Matrix.lu_correct`, `Matrix.lu_multipliers_le_one`, `Matrix.inverse2_correct`, `Matrix.inverse2_eq_inverse`, `Matrix.det_correct_partial`, `Matrix.det_zero_wrong`, `Matrix.det2_correct`, `Matrix.det_mul_partial`, `Matrix.inverse_none_iff_det_partial`, `Matrix.vector_roundtrip_partial`, `Matrix.vectorToMatrix_none`, `Matrix.matrixToVector_not_square`
* Limits: Everything about inverse is proved. det of the matrix of size zero is 0 instead of 1 (det_zero_wrong); proved for all other sizes. matrix_to_vector exchanges rows and columns and so reads outside a matrix that is not square (matrixToVector_not_square). Exact arithmetic; rounding is not modelled. inverse does not check that the matrix is square.

### C67 Transform functors and their composition (proved)

* Code: `src/vw/Math/Transform.h: ResampleTransform, TranslateTransform, LinearTransform, AffineTransform, RotateTransform, HomographyTransform, InverseTransform, CompositionTransform, affine2mat, mat2affine`
* Model and proofs: `Math/TransformProps.lean`
* Method: expressions of functors by structural induction over a field
* Theorems: `Warp.expr_roundtrip`, `Warp.affine_ok`, `Warp.project_mul`, `Warp.expr_proj`, `Warp.functor_laws`, `Warp.affine2mat_correct`, `Warp.rotate_correct`
* Limits: Exact arithmetic; cosine and sine of a rotation are any pair with c*c+s*s=1. The default numeric inverse (Levenberg-Marquardt) and PointLookup/Approximate transforms are not part of this claim.

### C68 Bounding boxes of transformed regions (partial)

* Code: `src/vw/Math/Transform.h: forward_bbox, reverse_bbox`; `src/vw/Image/Transform.h: compute_transformed_bbox, compute_transformed_bbox_fast`
* Model and proofs: `Math/TransformProps.lean`
* Method: corner argument: linear-fractional functions without poles take their extremes over a box at corners; lists of sampled pixels
* Theorems: `Warp.bbox_covers_partial`, `Warp.bbox_covers_affine`, `Warp.expr_type`, `Warp.discontinuous_covers`, `Warp.continuous_covers_partial`, `Warp.bbox_tight`, `Warp.bbox_empty`, `Warp.inverse_bbox`, `Warp.transformedBBox_mem`, `Warp.fast_eq_full_partial`, `Warp.bbox_pole_wrong`, `Warp.bbox_continuous_wrong`, `Warp.bbox_roundtrip_wrong`, `Warp.transformedBBox_half_open`
* Limits: Proved for affine functors and, for homographies, if no pole lies between the pixels of the box; refuted with a pole (bbox_pole_wrong: homographies are marked convex) and for continuous functors whose extremes are inside (bbox_continuous_wrong). A box transformed there and back can lose its last pixels (bbox_roundtrip_wrong); the box of compute_transformed_bbox taken as half-open lacks the last row and column (transformedBBox_half_open). Tightness assumes coordinates in the range of 32-bit integers.

### C69 Interpolation (proved)

* Code: `src/vw/Image/Interpolation.h: BilinearInterpolationImpl, BicubicInterpolationImpl, NearestPixelInterpolation`
* Model and proofs: `Image/WarpProps.lean`
* Method: closed forms of both polynomials per cell, floor/round characterised; field arithmetic
* Theorems: `Warp.eval_at_pixel`, `Warp.nearest_spec`, `Warp.bilinear_cell`, `Warp.bilinear_between`, `Warp.bilinear_ramp`, `Warp.bicubic_cell`, `Warp.bicubic_quadratic`, `Warp.bicubic_overshoot`, `Warp.eval_reads`, `Warp.eval_local`
* Limits: Exact arithmetic, one channel; the conversion to the channel type is an arbitrary function in the values, and in bilinear_between one that maps the interval to itself (the identity, or rounding if the bounds are integers). bicubic_overshoot: bicubic interpolation leaves the range of the pixels, which is why the code clamps.

### C70 Rasterizing a warped image (partial)

* Code: `src/vw/Image/Transform.h: TransformView, TransformViewNoData, resample, resize`; `src/vw/Image/Interpolation.h: InterpolationView::prerasterize`
* Model and proofs: `Image/WarpProps.lean`
* Method: locality lemma for each interpolation (pixels read are in the padded box), composed with C28 (edge extension) and C68 (boxes)
* Theorems: `Warp.warp_raster_partial`, `Warp.warp_raster_affine`, `Warp.warp_raster_discontinuous`, `Warp.extended_shows`, `Warp.interpPre_read`, `Warp.noData_raster_partial`, `Warp.noData_no_extension`, `Warp.noData_identity`, `Warp.noData_loses_border`, `Warp.warp_identity`, `Warp.warp_translate`, `Warp.warp_magnify`, `Warp.resampledSize_spec`, `Warp.resize_within`, `Warp.warp_reads_outside`
* Limits: Proved for affine functors, for every functor marked discontinuous, and for any other at the pixels whose reverse transform is in the box of the reverse transform. False for functors marked continuous (or homographies with poles, see C68) that need source pixels outside of that box: rasterizing reads what was not rasterized (warp_reads_outside). Findings: transform_nodata loses the last row and column of an image under the identity (noData_loses_border). Images one pixel wide with reflect or linear extension are excluded (C27).

### C71 Approximated transforms (partial)

* Code: `src/vw/Image/Transform.h: ApproximateTransform`
* Model and proofs: `Image/WarpProps.lean`
* Method: invariant: the table holds exact values on its grid; refinement by well-founded recursion on the box width; blending as convex combination
* Theorems: `Warp.approxTable_exact`, `Warp.approx_at_grid`, `Warp.approx_checked`, `Warp.approx_affine`, `Warp.affine_formula`, `Warp.approx_between`, `Warp.approx_small`, `Warp.warp_tolerance_affine`, `Warp.approx_tolerance_wrong`
* Limits: All but the last is proved (termination is part of the definition of the model). The tolerance is not kept: the refinement stops when the midpoints of the last grid fit, and the approximation can be off by any amount between (approx_tolerance_wrong).

### C72 Queries of the spatial tree (proved)

* Code: `src/vw/Geometry/SpatialTree.cc: apply, ContainsAllFunctor, ContainsOneFunctor, IntersectsAllFunctor, AllOverlapsFunctor, OverlapPairsFunctor`
* Model and proofs: `Geom/SpatialTreeProps.lean`
* Method: traversal with an explicit stack shown equal to a structural recursion; invariant of the tree (children are the quadrants, boxes contain their primitives) for every history; counting for pairs
* Theorems: `SpatialTree.contains_all`, `SpatialTree.contains_one`, `SpatialTree.intersects_all`, `SpatialTree.overlap_pairs_once`, `SpatialTree.History.spec`
* Limits: Exact arithmetic. overlap_pairs_once assumes that no primitive was added twice and that the intersects method of primitives is symmetric (the order of a pair is up to the tree).

### C73 Adding to the spatial tree (partial)

* Code: `src/vw/Geometry/SpatialTree.cc: SpatialTree::add, NodeContainsBBoxFunctor, split_bbox, grow_bbox_on_grid, SpatialTree::SpatialTree`
* Model and proofs: `Geom/SpatialTreeAddProps.lean`, `Geom/SpatialTreeGrow.lean`, `Geom/SpatialTreeProps.lean`, `Geom/SpatialTreeTotal.lean`
* Method: partial correctness of the non-structural recursions by fixpoint induction; termination by halving box sizes; invariant on forced elements; non-termination by fixpoint induction to False
* Theorems: `SpatialTree.History.spec`, `SpatialTree.add_spec`, `SpatialTree.LevelHistory.settled`, `SpatialTree.placed_smallest`, `SpatialTree.add_returns`, `SpatialTree.ofPrims_returns`, `SpatialTree.default_returns_iff`, `SpatialTree.point_never_added`, `SpatialTree.flat_outside_never_added`, `SpatialTree.ofPrims_flat`, `SpatialTree.mixed_levels_hang`, `SpatialTree.growOnGrid_some`
* Limits: Nothing is lost by any call that returns (History.spec). With one level for all calls and boxes with an inside, add returns (if the box need not grow by more than 2^30) and the primitive is in the smallest node. Refuted otherwise: add never returns for a primitive that is a point with the default level (point_never_added; with the default level it returns exactly for boxes that are more than a point, default_returns_iff); two primitives added with different levels make add go on for ever (mixed_levels_hang); a primitive with a flat box below the tree, and a list of flat primitives only, lead to a null pointer (flat_outside_never_added, ofPrims_flat).

### C74 Closest primitive (partial)

* Code: `src/vw/Geometry/SpatialTree.cc: ClosestFunctor, point_to_bbox_distance_heuristic, SpatialTree::closest`
* Model and proofs: `Geom/SpatialTreeClosest.lean`
* Method: best-first search invariant (everything not beaten is below a queued node); triangle inequality for the heuristic
* Theorems: `SpatialTree.closest_correct`, `SpatialTree.heuristic_le`, `SpatialTree.closest_single`, `SpatialTree.closest_misses`, `SpatialTree.closest_flat_throws`, `SpatialTree.maxPop_spec`
* Limits: Proved over the reals for boxes with an inside, and primitives not closer than the machine epsilon if the point is not in their (half-open) box. Refuted without: the heuristic is at least epsilon outside of the half-open box, so that a threshold below epsilon, such as 0, misses a primitive that touches the point with an upper face (closest_misses); a primitive with a flat box makes closest throw (closest_flat_throws).

### C75 Structure of the node trees (partial)

* Code: `src/vw/Geometry/TreeNode.h: TreeNode, ~TreeNode, recursive_delete, set_parent, register_child, deregister_child, root, is_ancestor_of, num_offsprings, children, pre_order_traverse, post_order_traverse, breadth_first_traverse`
* Model and proofs: `Geom/Frames/TreeProps.lean`
* Method: heap of nodes with the three pointers; invariant (child lists are chains that agree with the parent pointers, well-founded) kept by every operation; partial fixpoints for the loops; non-termination by fixpoint induction
* Theorems: `Verif.Geom.Frames.tree_children`, `Verif.Geom.Frames.tree_parent_alloc`, `Verif.Geom.Frames.tree_root`, `Verif.Geom.Frames.tree_new`, `Verif.Geom.Frames.tree_set_parent`, `Verif.Geom.Frames.tree_delete`, `Verif.Geom.Frames.tree_recursive_delete`, `Verif.Geom.Frames.tree_is_ancestor_of`, `Verif.Geom.Frames.tree_num_offsprings`, `Verif.Geom.Frames.tree_breadth_first`, `Verif.Geom.Frames.tree_pre_order`, `Verif.Geom.Frames.tree_post_order`, `Verif.Geom.Frames.tree_pre_order_siblings`, `Verif.Geom.Frames.tree_post_order_late`, `Verif.Geom.Frames.tree_cycle`
* Limits: Proved for histories in which no node is put below itself. Refuted: set_parent with a node of the own subtree is accepted and walks to the root never return (tree_cycle); pre_order_traverse on a node that has later siblings visits those too (tree_pre_order_siblings); post_order_traverse visits a node after its later siblings, so its order is not the post-order although each node comes after those below it (tree_post_order_late).

### C76 Ancestry and last common ancestor (proved)

* Code: `src/vw/Geometry/TreeNode.h: ancestry, last_common_ancestor_index, last_common_ancestor`
* Model and proofs: `Geom/Frames/TreeProps.lean`
* Method: ancestry as the chain of parents; the two ancestries agree on a prefix, loop invariant of the binary search
* Theorems: `Verif.Geom.Frames.tree_ancestry`, `Verif.Geom.Frames.tree_last_common_ancestor`, `Verif.Geom.Frames.tree_last_common_ancestor_symm`
* Limits: For histories in which no node is put below itself.

### C77 Transforms between frames (partial)

* Code: `src/vw/Geometry/FrameTreeNode.cc: get_transform`; `src/vw/Geometry/FrameStore.cc: get_transform, get_position_of`; `src/vw/Geometry/ATrans.h: ATrans`
* Model and proofs: `Geom/Frames/TransformProps.lean`
* Method: world placement as an inductive relation; product along a path equals the quotient of the world placements; group laws of affine maps
* Theorems: `Verif.Geom.Frames.frames_world`, `Verif.Geom.Frames.frames_get`, `Verif.Geom.Frames.frames_position`, `Verif.Geom.Frames.frames_compose`, `Verif.Geom.Frames.frames_self`, `Verif.Geom.Frames.frames_inverse`, `Verif.Geom.Frames.frames_parent`, `Verif.Geom.Frames.frames_apart`, `Verif.Geom.Frames.atrans_matrix`, `Verif.Geom.Frames.atrans_matrix_lost`
* Limits: Exact arithmetic over any field. Everything about frames of one tree is proved. Frames of different trees silently get the identity (frames_apart). Refuted: the conversion of a transform to a 4x4 matrix returns the zero matrix (atrans_matrix_lost).

### C78 Setting transforms of frames (partial)

* Code: `src/vw/Geometry/FrameTreeNode.h: set_transform, get_transform_of`; `src/vw/Geometry/FrameStore.cc: set_transform, set_transform_rel, get_frame_transforms, set_frame_transforms`
* Model and proofs: `Geom/Frames/TransformProps.lean`
* Method: the world placement after an assignment, inside and outside of the subtree
* Theorems: `Verif.Geom.Frames.frames_set`, `Verif.Geom.Frames.frames_set_outside`, `Verif.Geom.Frames.frames_set_inside`, `Verif.Geom.Frames.frames_set_assigns`, `Verif.Geom.Frames.frames_set_all`, `Verif.Geom.Frames.frames_set_below`, `Verif.Geom.Frames.frames_set_rel`
* Limits: Proved for a frame with a parent and a wrt frame of the same tree that is not below it. Refuted: for a wrt frame below it the request has no effect on the relative position (frames_set_below); set_transform_rel replaces the transform instead of composing with it (frames_set_rel).

### C79 The frame store stays a forest with unique names (partial)

* Code: `src/vw/Geometry/FrameStore.cc: add, del, set_parent, merge_tree, is_member, assert_unique`; `src/vw/Geometry/FrameStore.h`
* Model and proofs: `Geom/Frames/StoreProps.lean`
* Method: store invariant (heap invariant, roots, sibling names) preserved by each operation, induction over histories
* Theorems: `Verif.Geom.Frames.store_returns`, `Verif.Geom.Frames.store_roots`, `Verif.Geom.Frames.store_sibling_names`, `Verif.Geom.Frames.store_root_names`, `Verif.Geom.Frames.store_add`, `Verif.Geom.Frames.store_del_duplicates`, `Verif.Geom.Frames.store_reserved_name`
* Limits: Sibling names are unique after every history; root names are as long as frames are only deleted recursively. Refuted: del(frame, false) can leave two roots of one name (store_del_duplicates); names containing a slash are accepted and then not found by their full name (store_reserved_name).

### C80 Looking up frames by name (partial)

* Code: `src/vw/Geometry/FrameStore.cc: full_name, lookup`; `src/vw/Geometry/FrameTreeNode.cc: splitPath, matchNode, lookup`
* Model and proofs: `Geom/Frames/StoreProps.lean`
* Method: paths as a relation between names and nodes; splitting inverts joining; breadth-first search minimises depth
* Theorems: `Verif.Geom.Frames.store_full_name`, `Verif.Geom.Frames.store_lookup_absolute`, `Verif.Geom.Frames.store_lookup_full_name`, `Verif.Geom.Frames.store_full_name_injective`, `Verif.Geom.Frames.store_lookup_name`, `Verif.Geom.Frames.store_lookup_scope`, `Verif.Geom.Frames.store_lookup_scope_ignored`
* Limits: The round trip of full names assumes different root names (see C79). Refuted: the scope is ignored for absolute paths (store_lookup_scope_ignored).

### C81 Merging trees into the store (partial)

* Code: `src/vw/Geometry/FrameStore.cc: merge_tree`; `src/vw/Geometry/FrameTreeNode.cc: merge_frame_trees`
* Model and proofs: `Geom/Frames/StoreProps.lean`
* Method: induction over the height of the trees with a loop invariant for the sorted child lists; union by path
* Theorems: `Verif.Geom.Frames.store_merge`, `Verif.Geom.Frames.store_merge_start`
* Limits: Proved without a start frame. With a start frame the arguments of the merge are swapped: the store keeps only frames that are in both trees, the rest of them is deleted, and nothing is added (store_merge_start).

### C82 Membership, deletion and moving of frames (partial)

* Code: `src/vw/Geometry/FrameStore.cc: is_member, frame_names, del, set_parent`
* Model and proofs: `Geom/Frames/StoreProps.lean`
* Method: effect of each operation on the parent relation, read off the invariant
* Theorems: `Verif.Geom.Frames.store_is_member`, `Verif.Geom.Frames.store_frame_names`, `Verif.Geom.Frames.store_del`, `Verif.Geom.Frames.store_del_one`, `Verif.Geom.Frames.store_set_parent`, `Verif.Geom.Frames.store_set_parent_cycle`, `Verif.Geom.Frames.store_set_parent_foreign`
* Limits: Refuted: set_parent accepts a parent below the frame (store_set_parent_cycle) and a frame that is not in the store, for example a root of another store, which then has it too (store_set_parent_foreign).

### C83 Control network from match files (partial)

* Code: `src/vw/BundleAdjustment/ControlNetworkLoader.cc: build_control_network, matchesToMvg, buildTracks, matchMapToCnet`; `src/vw/InterestPoint/InterestPointUtils.h: pick_pair_subset`; `src/vw/Math/RandomSet.cc: pick_random_indices_in_range`
* Model and proofs: `BA/TracksProps.lean`
* Method: invariant of the two nested maps over the list of matches; numbering as a bijection; chains as the equivalence generated by matches
* Theorems: `Verif.BA.network_total`, `Verif.BA.network_self`, `Verif.BA.network_measures`, `Verif.BA.network_connected`, `Verif.BA.network_disjoint`, `Verif.BA.network_covers`, `Verif.BA.network_once`, `Verif.BA.network_direction`, `Verif.BA.thin_spec`, `Verif.BA.network_drops`, `Verif.BA.network_splits`
* Limits: Triangulation and ground control points are not modelled. An interest point is in exactly one tie point if no other interest point of its image is connected to it; otherwise another one may take its place (network_drops). Refuted: connected interest points, one per image, can end in two tie points, since tracks are never merged (network_splits). A file of an image with itself makes the function throw (network_self).

### C84 Camera relation network (partial)

* Code: `src/vw/BundleAdjustment/CameraRelation.cc: add_node, build_map, from_cnet`; `src/vw/BundleAdjustment/CameraRelation.h: FeatureBase, CameraNode, CameraRelationNetwork`
* Model and proofs: `BA/RelationProps.lean`
* Method: heap of features; invariants of the nodes and of the connections over the list of points; the multimap as a stable insertion
* Theorems: `Verif.BA.relation_total`, `Verif.BA.relation_features`, `Verif.BA.relation_nodes`, `Verif.BA.relation_in_camera`, `Verif.BA.relation_connections`, `Verif.BA.relation_symmetric`, `Verif.BA.relation_map`, `Verif.BA.relation_multimap`, `Verif.BA.relation_common`
* Limits: Everything is proved for networks in which each control point has a measure. A control point without measures makes from_cnet decrement the end of an empty vector, which is undefined (relation_total). With several measures of a point in one image the map of a feature leads to the last one (relation_map).

### C85 Random sample consensus (partial)

* Code: `src/vw/Math/RANSAC.h: RandomSampleConsensus::operator(), attempt_ransac, get_n_unique_integers, inliers, inlier_indices, reduce_min_num_output_inliers`
* Model and proofs: `Ransac/Props.lean`
* Method: fold over an arbitrary permutation of the iterations; induction over draws and attempts; counterexamples for the refuted parts
* Theorems: `Verif.Ransac.sample_distinct`, `Verif.Ransac.sample_ends`, `Verif.Ransac.sample_stuck`, `Verif.Ransac.inlier_indices_spec`, `Verif.Ransac.ransac_best`, `Verif.Ransac.ransac_fails`, `Verif.Ransac.ransac_schedule`, `Verif.Ransac.ransac_mean`, `Verif.Ransac.ransac_exact`, `Verif.Ransac.ransac_result`, `Verif.Ransac.ransac_throws`, `Verif.Ransac.ransac_ties`, `Verif.Ransac.ransac_fewer_inliers`, `Verif.Ransac.ransac_stays_reduced`
* Limits: Exact arithmetic; functors that do not throw. Refuted: with two models of equal mean error the result depends on the schedule (ransac_ties); the model fitted again can have fewer inliers than required (ransac_fewer_inliers); the required number stays reduced for later calls (ransac_stays_reduced); the sampling loop need not end (sample_stuck).

### C86 Nelder-Mead minimisation (partial)

* Code: `src/vw/Math/NelderMead.h: Simplex::update, insert_vertex, mean_vertex_location, nelder_mead`
* Model and proofs: `Opt/NelderMeadProps.lean`
* Method: Model over numbers without arithmetic laws; invariants of the simplex (size, recorded values, last vertex never rises) by case analysis of an update, induction over updates and restarts; coordinates of the points tried in a field.
* Theorems: `Verif.Opt.nm_descends`, `Verif.Opt.nm_status`, `Verif.Opt.nm_total`, `Verif.Opt.nm_default`, `Verif.Opt.nm_simplex`, `Verif.Opt.update_value`, `Verif.Opt.nm_best`, `Verif.Opt.nm_points`, `Verif.Opt.run_spec`, `Verif.Opt.nm_not_best`, `Verif.Opt.nm_no_coordinates`, `Verif.Opt.nm_status_late`
* Limits: No law of arithmetic is assumed (so rounding is covered, NaN is not), except for nm_points which is about exact arithmetic. Refuted: the result is the best point evaluated (nm_not_best: shrinking the whole simplex leaves the vertices unordered); it holds as long as that did not happen (nm_best). A seed without coordinates leads to undefined behaviour (nm_no_coordinates). A run that converged in exactly max_iterations is reported as not converged (nm_status_late).

### C87 Levenberg-Marquardt minimisation (partial)

* Code: `src/vw/Math/LevenbergMarquardt.h: levenberg_marquardt, levenberg_marquardtFixed`
* Model and proofs: `Opt/LMProps.lean`
* Method: Loops modelled over an abstract problem; chain of accepted points by induction over outer iterations; damped normal equations as real matrices, quadratic form of the damped Hessian.
* Theorems: `Verif.Opt.lm_descends`, `Verif.Opt.lm_trace`, `Verif.Opt.lm_abs`, `Verif.Opt.lm_rel`, `Verif.Opt.lm_iterations`, `Verif.Opt.lm_stationary`, `Verif.Opt.step_unique`, `Verif.Opt.step_zero`, `Verif.Opt.lm_step_descends`, `Verif.Opt.lm_linear`, `Verif.Opt.lm_linear_loop`, `Verif.Opt.lm_linear_better`, `Verif.Opt.lm_huge`, `Verif.Opt.lm_sixth`, `Verif.Opt.lm_nan`
* Limits: Model functions and solvers do not throw; the step in exact arithmetic. Refuted: for an initial error of 2^53 or more nothing is tried and a vector to which nothing was assigned is returned as converged (lm_huge); a point where the model is NaN is accepted (lm_nan); a better point found at the sixth trial of an iteration is dropped (lm_sixth). Proved for numbers without NaN for which norm + 1 > norm.

### C88 Steepest descent and conjugate gradients (partial)

* Code: `src/vw/Math/ConjugateGradient.h: ArmijoStepSize, CharalambousStepSize, ConstantStepSize, steepest_descent, conjugate_gradient`
* Model and proofs: `Opt/DescentProps.lean`
* Method: step rules as recursive functions over vectors of an ordered field; the length found by Armijo by induction on the trials left; telescoping sum for the convergence of steepest descent; the way of conjugate gradients as an inductive relation; counterexamples evaluated in the kernel
* Theorems: `Verif.Opt.armijo_spec`, `Verif.Opt.armijo_descends`, `Verif.Opt.charalambous_wolfe`, `Verif.Opt.charalambous_never`, `Verif.Opt.armijo_smooth`, `Verif.Opt.steepest_descends`, `Verif.Opt.steepest_smooth`, `Verif.Opt.steepest_gradient`, `Verif.Opt.constant_smooth`, `Verif.Opt.cg_way`, `Verif.Opt.cg_descends`, `Verif.Opt.cg_armijo`, `Verif.Opt.cg_steepest`, `Verif.Opt.cg_stationary`, `Verif.Opt.cg_uphill`, `Verif.Opt.armijo_gives_up`
* Limits: Exact arithmetic. Refuted: a seed where the gradient vanishes is returned by conjugate_gradient (cg_stationary: the second iteration divides 0 by 0); the result of conjugate_gradient is never worse than the seed, or one iteration more does not make it worse (cg_uphill: a Fletcher-Reeves direction may go up, and Armijo then accepts an increase); Armijo never increases the function when it gives up (armijo_gives_up); Charalambous always ends (charalambous_never: along a direction that goes up it never does). cg_descends and cg_armijo give the claim under the condition that the directions do not go up.

### C89 Particle swarm minimisation (partial)

* Code: `src/vw/Math/ParticleSwarmOptimization.h: particle_swarm_optimization`
* Model and proofs: `Opt/SwarmProps.lean`
* Method: the whole search as a fold over runs, iterations and particles with the random numbers as an arbitrary sequence; invariant "the best value is that of the best point and at most every value seen"; refutation for all functions with values of at least 1
* Theorems: `Verif.Opt.swarm_descends`, `Verif.Opt.swarm_best`, `Verif.Opt.swarm_evaluated`, `Verif.Opt.swarm_stuck`, `Verif.Opt.swarm_starts`, `Verif.Opt.swarm_speed`, `Verif.Opt.swarm_leaves_box`, `Verif.Opt.swarm_not_best`, `Verif.Opt.swarm_worse`
* Limits: Exact arithmetic. Refuted: the result is the best point evaluated (swarm_stuck, swarm_not_best: the first loop stores the value of a comparison, 1, as the best value; proved for functions with values below 1: swarm_best); not worse than the corner without iterations (swarm_worse); the result lies in the box (swarm_leaves_box); the speed limit (swarm_speed: a particle that is too fast is set to speed 1).

### C90 Newton-Raphson solver in the plane (partial)

* Code: `src/vw/Math/NewtonRaphson.cc: numericalJacobian, NewtonRaphson::solve`
* Model and proofs: `Opt/NewtonProps.lean`
* Method: the loop as a recursion over the iterations left with the points evaluated; invariant on the best point; exactness of the central difference and of the 2x2 inverse by field arithmetic
* Theorems: `Verif.Opt.newton_fallback`, `Verif.Opt.newton_converged`, `Verif.Opt.newton_no_value`, `Verif.Opt.numJac_quadratic`, `Verif.Opt.newton_affine`, `Verif.Opt.newton_worse`
* Limits: Exact arithmetic. Refuted: the result is never worse than the guess (newton_worse: the point after the last step is returned without evaluating the function there).

### C91 Masked pixels and mask views (partial)

* Code: `src/vw/Image/PixelMask.h: PixelMask, BinaryCompoundFunctor, UnaryCompoundFunctor, in-place functors, ArgArgMaskedSafeQuotientFunctor, mean_channel_value`; `src/vw/Image/MaskViews.h: create_mask, apply_mask, copy_mask, union_mask, intersect_mask, invert_mask, mask_to_alpha, alpha_to_mask, EdgeMaskView`
* Model and proofs: `Mask/Props.lean`
* Method: pixels as functions from channels with a valid channel; both code paths of each functor modelled; induction on expressions; NaN as the missing value of an option; the scans of the edge mask by induction with the first and last index found
* Theorems: `Verif.Mask.mask_expr`, `Verif.Mask.in_place`, `Verif.Mask.mask_basic`, `Verif.Mask.create_valid`, `Verif.Mask.create_value`, `Verif.Mask.apply_create`, `Verif.Mask.create_apply`, `Verif.Mask.apply_spec`, `Verif.Mask.mask_algebra`, `Verif.Mask.alpha_round`, `Verif.Mask.edge_valid`, `Verif.Mask.edge_documented`, `Verif.Mask.edge_value`, `Verif.Mask.edge_first_lost`, `Verif.Mask.mean_wrong`, `Verif.Mask.quot_by_zero`, `Verif.Mask.alpha_lost`
* Limits: Channel type conversions are left out. Refuted: with a buffer of zero, the default, edge_mask also masks the outermost pixels that do not have the mask value (edge_first_lost; with a buffer of -1 it does what is documented: edge_documented; edge_valid says exactly which pixels are valid); mean_channel_value of a masked pixel leaves out the last channel (mean_wrong); a divisor with only some channels zero is divided by (quot_by_zero); half transparent pixels become opaque (alpha_lost). validate_mask is declared without definition.

### C92 Left-right consistency check of disparity maps (proved)

* Code: `src/vw/Stereo/Correlate.cc: cross_corr_consistency_check`
* Model and proofs: `DMap/CrossProps.lean`
* Method: one step lemma for the loop body, then induction over the list of pixels without repetition with the original map as reference; the algebra of absolute values for the distance of pixels kept
* Theorems: `Verif.DMap.cross_spec`, `Verif.DMap.cross_frame`, `Verif.DMap.cross_returns`, `Verif.DMap.cross_injective`, `Verif.DMap.cross_idem`
* Limits: Integer disparities, any ordered type for the threshold. The log output is left out.

### C93 Masks and warps of disparity maps (partial)

* Code: `src/vw/Stereo/DisparityMap.h: DisparityMaskView, DisparityRangeMaskFunc, TransformDisparitiesFunc, transform_disparities, IntersectPixelMaskData`
* Model and proofs: `DMap/MaskProps.lean`
* Method: images as functions, tiles as partial images whose reads may fail; the range of the valid disparities by induction over the pixels; floor and ceiling bounds show that all reads are in the part kept
* Theorems: `Verif.DMap.mask_full`, `Verif.DMap.dispRange_spec`, `Verif.DMap.mask_tile`, `Verif.DMap.mask_out_of_range`, `Verif.DMap.rangeMask_spec`, `Verif.DMap.rangeMask_rows`, `Verif.DMap.transformFunc_spec`, `Verif.DMap.transformRegion_spec`, `Verif.DMap.intersectData_spec`
* Limits: Refuted: with a search range that does not hold a disparity of the tile, the tile reads outside of its memory (mask_out_of_range; equal to the whole for ranges that do, and always without range: mask_tile). The range mask compares rows with the lower bound of columns, so it is wrong whenever the two differ (rangeMask_rows; right if they are equal: rangeMask_spec).

### C94 Resampling and outlier removal of disparity maps (partial)

* Code: `src/vw/Stereo/DisparityMap.h: DisparitySubsampleView, DisparityUpsampleView, RmOutliersUsingThreshFunc, RmOutliersUsingMeanFunc, RmOutliersUsingStdDev, StdDevImageFunc`; `src/vw/Image/PerPixelAccessorViews.h: pad_bbox`
* Model and proofs: `DMap/Props.lean`, `DMap/SampleProps.lean`
* Method: weighted sums over lists of neighbours; windows as lists of offsets with exact membership and length; loops by induction; upper quartile by counting in the sorted list
* Theorems: `Verif.DMap.sub_valid`, `Verif.DMap.sub_bounds`, `Verif.DMap.sub_bounds_int`, `Verif.DMap.sub_constant`, `Verif.DMap.subBox_covers`, `Verif.DMap.subSize_spec`, `Verif.DMap.up_spec`, `Verif.DMap.sub_up`, `Verif.DMap.upBox_covers`, `Verif.DMap.padBox_covers`, `Verif.DMap.rmThresh_spec`, `Verif.DMap.rmThresh_extremes`, `Verif.DMap.mean_row_stuck`, `Verif.DMap.mean_row_spec`, `Verif.DMap.rmMean_frame`, `Verif.DMap.rmMean_spec`, `Verif.DMap.cutoff_spec`, `Verif.DMap.cutoff_rank`, `Verif.DMap.rmStd_spec`, `Verif.DMap.stdWrites_fit`, `Verif.DMap.stdWrites_overflow`, `Verif.DMap.stdDevImage_odd`, `Verif.DMap.stdDevImage_even`
* Limits: Exact numbers. Refuted: a tile of the doubled map asks its child for the unscaled box, which holds what it reads only for tiles at the origin (upBox_covers); an empty map is halved to one pixel (subSize_spec); the loop for the mean stays on a gross outlier and ignores the rest of the row (mean_row_stuck; right without gross outliers: rmMean_spec); the deviation filter writes behind its vectors for windows wider than high (stdWrites_overflow); std_dev_image of a constant image is not zero for even sizes, and it returns the variance (stdDevImage_even, stdDevImage_odd). The plane filter is left out.

### C95 Triangulation from several cameras (partial)

* Code: `src/vw/Stereo/StereoModel.cc: triangulate_pair, are_nearly_parallel, triangulate_point, StereoModel::operator()`
* Model and proofs: `Camera/StereoProps.lean`, `Camera/TriangulateProps.lean`
* Method: normal equations by induction over the rays; the sum of squares of distances as a quadratic form, minimal exactly at the solution; singularity of the matrix iff all rays are parallel; explicit solution for two rays
* Theorems: `Verif.Camera.pair_spec`, `Verif.Camera.pair_exact`, `Verif.Camera.pair_swap`, `Verif.Camera.pair_scale`, `Verif.Camera.rayDistSq_spec`, `Verif.Camera.multi_spec`, `Verif.Camera.multi_pair`, `Verif.Camera.multi_exact`, `Verif.Camera.point_exact`, `Verif.Camera.nearlyParallel_spec`, `Verif.Camera.rays_exact`, `Verif.Camera.pickRays_spec`, `Verif.Camera.triangulate_cases`, `Verif.Camera.triangulate_exact`, `Verif.Camera.opposite_nan`, `Verif.Camera.drift`, `Verif.Camera.reflect_behind`, `Verif.Camera.reflect_front`, `Verif.Camera.no_reflect`
* Limits: Exact numbers. Refuted: opposite directions pass the test for parallel rays and give NaN (opposite_nan); only neighbouring directions are compared, so a wide fan of rays is refused (drift); a point behind one of the cameras is reflected about the centre of the first, which puts a point that was in front of the first camera behind it (reflect_behind; right if it was behind the first: reflect_front).

### C96 CAHV camera model (partial)

* Code: `src/vw/Camera/CAHVModel.cc: point_to_pixel, pixel_to_vector, camera_center, constructors, epipolar`
* Model and proofs: `Camera/CahvProps.lean`
* Method: vector algebra over an ordered field with an abstract square root; uniqueness of the line of a pixel from independence of A, H, V
* Theorems: `Verif.Camera.normalize_spec`, `Verif.Camera.pixel_iff`, `Verif.Camera.vector_spec`, `Verif.Camera.round_trip`, `Verif.Camera.cahv_stereo`, `Verif.Camera.params_project`, `Verif.Camera.view_center`, `Verif.Camera.epipolar_spec`, `Verif.Camera.epipolar_rows`, `Verif.Camera.epipolar_rows_fail`
* Limits: Exact numbers. Refuted: the constructor from a view matrix reads row 3 for the centre, so for a view matrix (last row 0 0 0 1) the camera is at the origin (view_center). After rectification a point has equal rows only if the baseline is perpendicular to the mean axis or the point is in a special plane (epipolar_rows, epipolar_rows_fail). Files are not modelled.

### C97 Rotations as quaternions, matrices and axis with angle (partial)

* Code: `src/vw/Math/Quaternion.h: Quaternion, rotation_matrix, rotate, axis_angle, axis_angle_to_quaternion, axis_angle_to_matrix, matrix_to_axis_angle`; `src/vw/Math/Quaternion.cc: slerp, slerp_n`
* Model and proofs: `Camera/AxisProps.lean`, `Camera/QuatProps.lean`
* Method: polynomial identities; for matrices the 21 quadratic relations of a rotation and a case split on the largest diagonal sum; real trigonometry for axis, angle and interpolation; induction over the list for slerp_n
* Theorems: `Verif.Camera.toM_mul`, `Verif.Camera.toM_rot`, `Verif.Camera.rotate_spec`, `Verif.Camera.inv_spec`, `Verif.Camera.rot_dot`, `Verif.Camera.ofM_toM`, `Verif.Camera.toM_ofM`, `Verif.Camera.ofM_reflection`, `Verif.Camera.ofM_det_neg`, `Verif.Camera.axis_matrix`, `Verif.Camera.axis_round`, `Verif.Camera.matrix_axis_round`, `Verif.Camera.slerp_ends`, `Verif.Camera.slerp_unit`, `Verif.Camera.slerpN_some`, `Verif.Camera.slerpN_zero`, `Verif.Camera.slerpN_value`
* Limits: Exact numbers. Refuted: a matrix with negative determinant gives a quaternion of another matrix without report (ofM_det_neg); slerp_n fails for right weights if the first two are zero (slerpN_zero; otherwise right: slerpN_some). A rotation smaller than the threshold comes back only up to twice the threshold (axis_round).

### C98 Pinhole camera model (partial)

* Code: `src/vw/Camera/PinholeModel.cc: rebuild_camera_matrix, point_to_pixel, point_to_pixel_no_check, point_to_pixel_no_distortion, projection_valid, pixel_to_vector, setters, apply_transform, scale_camera, strip_lens_distortion`
* Model and proofs: `Camera/PinOps.lean`, `Camera/PinProject.lean`, `Camera/PinholeProps.lean`
* Method: invariant "matrices fresh" by induction over the history of calls; matrix algebra; the inverse through the model of the general matrix inverse
* Theorems: `Verif.Camera.inverse_m3`, `Verif.Camera.rebuild_spec`, `Verif.Camera.fresh_unique`, `Verif.Camera.setters_spec`, `Verif.Camera.run_fresh`, `Verif.Camera.plane_spec`, `Verif.Camera.valid_spec`, `Verif.Camera.pin_vector_spec`, `Verif.Camera.pin_round_trip`, `Verif.Camera.check_spec`, `Verif.Camera.make_spec`, `Verif.Camera.scale_spec`, `Verif.Camera.strip_spec`, `Verif.Camera.scale_left_handed`, `Verif.Camera.transform_spec`, `Verif.Camera.transform4_spec`, `Verif.Camera.no_rebuild`, `Verif.Camera.focal_zero`
* Limits: Exact numbers, abstract lens. Refuted: the check of point_to_pixel accepts points behind the camera (check_spec); set_focal_length and set_point_offset with rebuild=false leave stale matrices (no_rebuild); a focal length of zero throws but leaves new parameters and camera matrix with the old inverse (focal_zero); scaling or stripping a camera whose rotation is left-handed changes its orientation without report (scale_left_handed). Files and set_camera_matrix are not modelled.

### C99 Rectification of pinhole cameras and conversion to and from CAHV (partial)

* Code: `src/vw/Camera/PinholeModel.cc: epipolar`; `src/vw/Camera/CAHVModel.cc: operator=(PinholeModel), toPinhole`
* Model and proofs: `Camera/PinStereo.lean`
* Method: vector algebra; orthonormal frame from baseline and mean axis; uniqueness of the pixel from the two plane equations
* Theorems: `Verif.Camera.pin_epipolar`, `Verif.Camera.pin_epipolar_frame`, `Verif.Camera.ofPin_spec`, `Verif.Camera.toPin_spec`, `Verif.Camera.toPin_changes`, `Verif.Camera.toPin_skew`
* Limits: Exact numbers. Refuted: epipolar takes the third column of the rotation as viewing axis, so for cameras whose frame is reversed the result looks the other way (pin_epipolar_frame); toPinhole normalises the vector A of its source (toPin_changes) and is wrong for cameras with skew (toPin_skew); the conversion to CAHV drops the lens without report.

### C100 Euler angles (partial)

* Code: `src/vw/Math/EulerAngles.h: rotation_x_axis, rotation_y_axis, rotation_z_axis, euler_to_rotation_matrix, euler_to_quaternion, rotation_matrix_to_euler_xyz, rotation_matrix_to_euler_zyx, rotation_matrix_to_euler_yxz, rotation_matrix_to_euler_zxy, euler_xyz_to_quaternion, quaternion_to_euler_xyz`
* Model and proofs: `Camera/EulerProps.lean`
* Method: Rodrigues formula as specification; polar coordinates for atan2; the 21 quadratic relations of a rotation matrix for the round trips of the four orders; arithmetic and geometric mean for the error near gimbal lock
* Theorems: `Verif.Camera.euler_matrix`, `Verif.Camera.euler_new_axes`, `Verif.Camera.euler_round`, `Verif.Camera.euler_lock`, `Verif.Camera.xyzQ_spec`, `Verif.Camera.qXYZ_round`, `Verif.Camera.qXYZ_lock`, `Verif.Camera.qXYZ_lock_inexact`
* Limits: Exact reals. Refuted: where the second angle is a right angle all rotations get the angles (0, right angle, 0), whose matrix is another one (euler_lock); quaternion_to_euler_xyz is exact at the right angle itself but not within its threshold, with the error bounded in qXYZ_lock (qXYZ_lock_inexact); the comment says the turns are about the new axes, they are about fixed ones (euler_new_axes).

### C101 Adjusted camera model (partial)

* Code: `src/vw/Camera/CameraModel.cc: AdjustedCameraModel`; `src/vw/Camera/CameraModel.h: AdjustedCameraModel`
* Model and proofs: `Camera/AdjustedProps.lean`
* Method: invariant over histories of setters; the conjugation of quaternions as a rotation; algebra of rigid transforms
* Theorems: `Verif.Camera.adj_run`, `Verif.Camera.adj_setters`, `Verif.Camera.rotCenter_spec`, `Verif.Camera.move_rigid`, `Verif.Camera.adj_spec`, `Verif.Camera.adj_consistent`, `Verif.Camera.ecef_spec`, `Verif.Camera.adj_transform`, `Verif.Camera.adj_transform_stale`, `Verif.Camera.read_write`, `Verif.Camera.read_short`
* Limits: Exact numbers; the camera inside is abstract. Refuted: apply_transform does not update the stored inverse rotation, so point_to_pixel is wrong afterwards unless the rotation is the identity (adj_transform_stale), until the camera is written and read; with a scale other than 1 only the centre of rotation is moved as the world is, so centres of linescan cameras are wrong (adj_transform). A file cut short is accepted (read_short).

### C102 Refraction at a plane (partial)

* Code: `src/vw/Cartography/SnellLaw.cc: signedDistToPlaneAux, rayPlaneIntersect, snellLaw`
* Model and proofs: `Bathy/SnellProps.lean`
* Method: Lagrange identity; the root of the quadratic gives the ratio of sines; uniqueness from the cross product and the sign
* Theorems: `Verif.Camera.Bathy.rayPlane_spec`, `Verif.Camera.Bathy.rayPlane_behind`, `Verif.Camera.Bathy.refracted_unique`, `Verif.Camera.Bathy.snell_spec`, `Verif.Camera.Bathy.snell_complete`, `Verif.Camera.Bathy.snell_perpendicular`
* Limits: Exact numbers, unit normals and directions. Refuted: a ray perpendicular to the plane is refused though it goes straight on (snell_perpendicular); a ray that starts below the plane gets the point behind its start (rayPlane_behind).

### C103 Stereo through water (partial)

* Code: `src/vw/Cartography/BathyStereoModel.cc: BathyStereoModel::set_bathy, BathyStereoModel::operator()`; `src/vw/Cartography/BathyStereoModel.h: BathyStereoModel`; `src/vw/Cartography/BathyRay.cc: rayBathyPlaneIntersect, curvedSnellLawAgainstPlane`
* Model and proofs: `Bathy/StereoProps.lean`
* Method: case analysis of the parts with the midpoint characterisation of C95; invariant that the iterates stay on the ray; C102 for flat water
* Theorems: `Verif.Camera.Bathy.curved_exact`, `Verif.Camera.Bathy.setBathy_spec`, `Verif.Camera.Bathy.bathy_off`, `Verif.Camera.Bathy.one_plane`, `Verif.Camera.Bathy.two_planes`, `Verif.Camera.Bathy.two_planes_unbent`, `Verif.Camera.Bathy.flat_exact`, `Verif.Camera.Bathy.flat_nadir`, `Verif.Camera.Bathy.setBathy_failed`, `Verif.Camera.Bathy.surfaces_confused`
* Limits: Exact numbers; map projections, the seed of the intersection and the sampling of water images are abstract. Refuted: if one camera looks straight down on flat water nothing is corrected, and the point under water is the uncorrected one (flat_nadir); a failed set-up leaves the mode on, and with cameras given as a list a member that was never set is then read (setBathy_failed); different water images with the same best-fit plane are taken for one (surfaces_confused).

### C104 Water plane fit, masks and list of planes (partial)

* Code: `src/vw/Cartography/BathyData.cc: fitPlaneToPoints, read_bathy_mask, areMasked, readBathyPlanes`; `src/vw/Math/LinearAlgebra.h: solve_symmetric`
* Model and proofs: `Bathy/DataProps.lean`
* Method: Cholesky decomposition as completion of squares; difference of costs is the quadratic form
* Theorems: `Verif.Camera.Bathy.fit_spec`, `Verif.Camera.Bathy.land_spec`, `Verif.Camera.Bathy.areMasked_spec`, `Verif.Camera.Bathy.cround_near`, `Verif.Camera.Bathy.clone_spec`, `Verif.Camera.Bathy.clone_zero`
* Limits: Exact numbers; reading of files is not modelled. Refuted: with no images a single plane is kept, so there are more planes than images (clone_zero).

### C105 Piecewise interpolation of positions (partial)

* Code: `src/vw/Math/PositionInterp.cc: LinearPiecewisePositionInterpolation, PiecewiseAPositionInterpolation, HermitePositionInterpolation`
* Model and proofs: `Interp/PieceProps.lean`
* Method: floor and ceil from the bracketing samples; identities of polynomials
* Theorems: `Verif.Camera.Interp.linear_spec`, `Verif.Camera.Interp.linear_edge`, `Verif.Camera.Interp.accel_spec`, `Verif.Camera.Interp.accel_exact`, `Verif.Camera.Interp.accel_jump`, `Verif.Camera.Interp.hermite_spec`, `Verif.Camera.Interp.hermite_exact`, `Verif.Camera.Interp.hermite_last`
* Limits: Exact numbers. Refuted: the end of the range of times that linear interpolation checks for is refused all the same (linear_edge); with velocities that do not fit the positions the interpolation with accelerations jumps at the samples (accel_jump); Hermite interpolation refuses the time of the last sample (hermite_last). Curve3DPositionInterpolation (least squares) is not modelled.

### C106 Lagrange interpolation of positions (partial)

* Code: `src/vw/Math/PositionInterp.cc: LagrangianInterpolationVarTime, LagrangianInterpolation`; `src/vw/Math/PositionInterp.h: m_times_temp`
* Model and proofs: `Interp/LagrangeProps.lean`
* Method: the loops are the Lagrange basis of Mathlib; uniqueness of the interpolating polynomial; induction over the list of threads
* Theorems: `Verif.Camera.Interp.through_spec`, `Verif.Camera.Interp.window_spec`, `Verif.Camera.Interp.lagrangeVar_spec`, `Verif.Camera.Interp.lagrangeVar_exact`, `Verif.Camera.Interp.lagrangeVar_sample`, `Verif.Camera.Interp.radius_one`, `Verif.Camera.Interp.times_not_checked`, `Verif.Camera.Interp.lagrangeUni_spec`, `Verif.Camera.Interp.lagrangeUni_exact`, `Verif.Camera.Interp.lagrangeUni_last`, `Verif.Camera.Interp.uniOk_spec`, `Verif.Camera.Interp.threads_locked`, `Verif.Camera.Interp.threads_race`
* Limits: Exact numbers. Refuted: a radius of one is refused though the message asks for more than zero (radius_one); times that do not increase are accepted (times_not_checked); with equal steps the last time is refused (lagrangeUni_last); overlapping calls of threads disturb each other through the member array of times, calls under a lock are right (threads_race, threads_locked).

### C107 Weighted means of positions, times of lines (partial)

* Code: `src/vw/Math/PositionInterp.cc: get_wts_and_indices, SmoothPiecewisePositionInterpolation`; `src/vw/Camera/TimeInterp.cc: TLCTimeInterpolation`
* Model and proofs: `Interp/SmoothProps.lean`, `Interp/TlcProps.lean`
* Method: permutation and order of the sort; convexity; the map is the list of segments for increasing lines
* Theorems: `Verif.Camera.Interp.weights_spec`, `Verif.Camera.Interp.smooth_spec`, `Verif.Camera.Interp.smooth_const`, `Verif.Camera.Interp.smooth_misses`, `Verif.Camera.Interp.smooth_none`, `Verif.Camera.Interp.tlcTime_spec`, `Verif.Camera.Interp.tlc_decreasing`, `Verif.Camera.Interp.tlc_short`
* Limits: Exact numbers; the exponential is any positive increasing function, the sort any that sorts. Refuted: the smoothed curve does not go through the samples (smooth_misses); no weights give the origin instead of an error (smooth_none); a table with decreasing lines gives wrong times (tlc_decreasing), one with fewer than two entries an invalid read (tlc_short).

### C108 Interpolation of orientations (partial)

* Code: `src/vw/Math/QuatInterp.cc: SLERPPoseInterpolation, SmoothSLERPPoseInterpolation, QuatLagrangianInterpolationVarTime`
* Model and proofs: `Interp/PoseProps.lean`
* Method: cases of the fraction of the step; C97 for slerp; Lagrange basis of Mathlib
* Theorems: `Verif.Camera.Interp.slerpPose_spec`, `Verif.Camera.Interp.slerpPose_unit`, `Verif.Camera.Interp.smoothPose_spec`, `Verif.Camera.Interp.quatVar_spec`, `Verif.Camera.Interp.quatVar_sample`, `Verif.Camera.Interp.quatVar_signs`
* Limits: Reals. Refuted: with Lagrange interpolation a camera at rest whose quaternions alternate in sign gets the zero quaternion (quatVar_signs). QuatLagrangianInterpolation (equal steps) is not modelled; its window and array of times are those of C106.

### C109 Directions on a grid (partial)

* Code: `src/vw/Math/QuatInterp.cc: SlerpGridPointingInterpolation`
* Model and proofs: `Interp/GridProps.lean`
* Method: indices from floor and ceil as in C105; at the points of the grid the fraction is zero
* Theorems: `Verif.Camera.Interp.grid_in`, `Verif.Camera.Interp.grid_node`, `Verif.Camera.Interp.grid_left`, `Verif.Camera.Interp.grid_left_two`, `Verif.Camera.Interp.grid_left_slope`, `Verif.Camera.Interp.grid_right_outside`
* Limits: Reals. Refuted: before the first column the slope is scaled by the whole width of the table, so it is right with two columns only (grid_left_two, grid_left_slope); after the last column its coordinate is used as an index, which reads outside the table (grid_right_outside).

### C110 Pixel and map coordinates (partial)

* Code: `src/vw/Cartography/GeoReference.cc: set_transform, pixel_to_point, point_to_pixel, crop, resample`; `src/vw/Cartography/GeoReference.h: GeoReference`
* Model and proofs: `Georef/PixelProps.lean`
* Method: invariant over every sequence of operations: the cached matrices are the transform, its shift, and their inverses; Mathlib-free 3x3 matrix identities
* Theorems: `Verif.Georef.pixel_point_round_trip`, `Verif.Georef.affine_round_trip`, `Verif.Georef.pixel_position`, `Verif.Georef.area_shift_iff`, `Verif.Georef.setTransform_accepts`, `Verif.Georef.setTransform_failed_state`, `Verif.Georef.crop_position`, `Verif.Georef.crop_keeps`, `Verif.Georef.resample_position`, `Verif.Georef.resample_rotated`, `Verif.Georef.make_exists`
* Limits: Exact field. Refuted: with a rotation the shift for area pixels is not half a pixel (area_shift_iff), cropping and resampling a rotated image move it (crop_position, resample_rotated); a failed set_transform leaves the new matrix with the old inverse (setTransform_failed_state).

### C111 Boxes of georeferenced images (partial)

* Code: `src/vw/Cartography/GeoReference.cc: pixel_to_point_bbox, point_to_pixel_bbox, pixel_to_lonlat_bbox, lonlat_to_pixel_bbox, point_to_lonlat_bbox, lonlat_to_point_bbox`; `src/vw/Cartography/GeoReferenceUtils.cc: sample_int_box, sample_float_box`
* Model and proofs: `Georef/BoxProps.lean`, `Georef/SampleProps.lean`
* Method: C48 boxes and C61 Bresenham lines for the samples; affine and monotone functions take their extremes at corners
* Theorems: `Verif.Georef.pixelToPointBox_covers`, `Verif.Georef.pointToPixelBox_covers`, `Verif.Georef.empty_box`, `Verif.Georef.sampleInt_intBox`, `Verif.Georef.sampleInt_misses`, `Verif.Georef.pixelToLonlatBox_geographic`, `Verif.Georef.pixelToLonlatBox_boundary`, `Verif.Georef.pixelToLonlatBox_cylindrical`, `Verif.Georef.sampleFloat_spec`, `Verif.Georef.samples_spec`, `Verif.Georef.pointToLonlatBox_cylindrical`, `Verif.Georef.lonlatBoxes_cylindrical`, `Verif.Georef.lonlatToPixelBox_geographic`, `Verif.Georef.pole_missed`, `Verif.Georef.corner_missed`, `Verif.Georef.lonlatToPixelBox_unwrapped`
* Limits: Exact field; the projection is an arbitrary partial function. Proved for affine, geographic and cylindrical (monotone in each coordinate) maps, and for the sampled places of any map. Refuted otherwise: poles inside the box are missed (pole_missed), the max corner is not sampled (corner_missed), sub-pixel boxes near zero give nothing (sampleInt_misses), longitudes are not wrapped for geographic images (lonlatToPixelBox_unwrapped).

### C112 Longitudes of georeferenced images (partial)

* Code: `src/vw/Cartography/GeoReference.cc: pixel_to_lonlat, lonlat_to_pixel, lonlat_to_point, set_wkt, ll_box_from_pix_box`
* Model and proofs: `Georef/LonProps.lean`
* Method: cases of the two comparisons in the wrap; box invariants of C110
* Theorems: `Verif.Georef.wrap_spec`, `Verif.Georef.wrap_within_iff`, `Verif.Georef.wrap_same`, `Verif.Georef.geographic_round_trip_iff`, `Verif.Georef.projected_round_trip`, `Verif.Georef.image_round_trip`, `Verif.Georef.setTransform_mid`, `Verif.Georef.global_image_lost`, `Verif.Georef.setWkt_wrong_mid`
* Limits: Exact field. Refuted for georeferences without a known image size: a global image made in memory loses half of its pixels (global_image_lost), and set_wkt uses the old kind of projection to place the box (setWkt_wrong_mid).

### C113 Conversion between two georeferenced images (partial)

* Code: `src/vw/Cartography/GeoTransform.cc: GeoTransform, forward, reverse, point_to_point, pixel_to_point, point_to_pixel, forward_bbox, reverse_bbox, reproject_point_image`
* Model and proofs: `Georef/GeoTransProps.lean`
* Method: composition of the affine maps of C110 with the wrap of C112 and the boxes of C111
* Theorems: `Verif.Georef.make_spec`, `Verif.Georef.skip_round_trip`, `Verif.Georef.forward_sameplace`, `Verif.Georef.geographic_forward_reverse`, `Verif.Georef.point_conversions_agree`, `Verif.Georef.skip_boxes_cover`, `Verif.Georef.boxes_boundary`, `Verif.Georef.point_boxes_cover`, `Verif.Georef.skip_wrong`, `Verif.Georef.reproject_wrong`, `Verif.Georef.reproject_keeps`
* Limits: Exact field; conversion between datums is not modelled (the constructor refuses it unless it is the identity). Refuted: the shortcut is decided by one corner, so that 0..360 to -180..180 sends pixels outside (skip_wrong); reproject_point_image treats points as pixels (reproject_wrong).

### C114 Geodetic and cartesian coordinates (partial)

* Code: `src/vw/Cartography/Datum.cc: Datum::geodetic_to_cartesian, Datum::cartesian_to_geodetic`
* Model and proofs: `Datum/GeoProps.lean`, `Datum/RadiusProps.lean`, `Datum/RoundProps.lean`
* Method: uniqueness of the positive root k of the quartic of the foot point; each case of the code (Cardano outside the evolute, trigonometric solution inside, the cusp) is shown to give a root of the cubic that leads to it; half-angle formulas for atan2
* Theorems: `Verif.Datum.toCartesian_spec`, `Verif.Datum.longitude_spec`, `Verif.Datum.cartesian_round_trip`, `Verif.Datum.inner_round_trip`, `Verif.Datum.equator_round_trip`, `Verif.Datum.disc_round_trip`, `Verif.Datum.near_centre`, `Verif.Datum.centre_wrong`, `Verif.Datum.geodetic_round_trip`, `Verif.Datum.above_surface`
* Limits: Real numbers. Proved for every point outside a small spheroid around the centre (43 km for the Earth), and in each of the inner cases; refuted for points near the centre outside the evolute (near_centre, centre_wrong: power of a negative number gives latitude and height zero). In the singular disc the point found is moved to the equatorial plane (disc_round_trip).

### C115 Radii and latitudes of the datum (partial)

* Code: `src/vw/Cartography/Datum.cc: Datum::radius, Datum::geocentric_latitude, Datum::radius_of_curvature, Datum::geocentric_radius, Datum::inverse_flattening`
* Model and proofs: `Datum/AxesProps.lean`, `Datum/RadiusProps.lean`
* Method: trigonometry; intersection of a direction with the spheroid
* Theorems: `Verif.Datum.radius_spec`, `Verif.Datum.radius_not_geodetic`, `Verif.Datum.geocentricLatitude_spec`, `Verif.Datum.geocentricLatitude_sphere`, `Verif.Datum.radiusOfCurvature_spec`, `Verif.Datum.geocentricRadius_spec`, `Verif.Datum.geocentricRadius_pole`, `Verif.Datum.inverseFlattening_spec`
* Limits: Real numbers. Refuted: radius takes a geocentric latitude (radius_not_geodetic); geocentric_latitude of a sphere is its radius, and otherwise it is in radians although it takes degrees (geocentricLatitude_sphere); geocentric_radius is wrong for altitudes other than zero (geocentricRadius_pole).

### C116 North, east and down (partial)

* Code: `src/vw/Cartography/Datum.cc: Datum::lonlat_to_ned_matrix`
* Model and proofs: `Datum/AxesProps.lean`
* Method: sum formulas turn the differences into multiples of the exact axes; monotone height of the surface in the latitude
* Theorems: `Verif.Datum.ned_east_down`, `Verif.Datum.ned_north`, `Verif.Datum.ned_sphere`
* Limits: Real numbers. Proved: east and down are exact away from the poles, north is a unit vector perpendicular to east that points north; for spheres all three are exact. Missing: how far north is from the tangent of the meridian for a spheroid that is not a sphere (the difference quotient is only near it), and the poles (there the step to the east has length zero).

### C117 Ray and datum (partial)

* Code: `src/vw/Cartography/Datum.cc: datum_intersection`
* Model and proofs: `Datum/RayProps.lean`
* Method: scaling to a sphere; |c + t e|^2 as a distance to the axis plus a square
* Theorems: `Verif.Datum.intersect_spec`, `Verif.Datum.intersect_zero`, `Verif.Datum.intersect_behind`
* Limits: Real numbers. Proved for the whole line: the first point along the direction, zero exactly if the line misses. Refuted for the ray: it may be behind the camera (intersect_behind).

### C118 Manager of open image files (partial)

* Code: `src/vw/FileIO/DiskImageManager.h: DiskImageManager, get_handle, release, add_file_handle_not_thread_safe, freeup_handles_not_thread_safe`
* Model and proofs: `FileIO/ManagerProps.lean`, `FileIO/ManagerRun.lean`
* Method: invariant over all reachable histories: references out are at most the use count, and refer to open files with fresh numbers; the greatest rank is characterised by cases
* Theorems: `Verif.FileIO.get_open`, `Verif.FileIO.get_far`, `Verif.FileIO.get_near`, `Verif.FileIO.get_fails`, `Verif.FileIO.references_stay_open`, `Verif.FileIO.get_count`, `Verif.FileIO.open_bound`, `Verif.FileIO.get_wrong`, `Verif.FileIO.none_open`
* Limits: Refuted: if all images show the box, get_handle may choose one that is already closed and fail although another could be closed, and counts the image as used for ever (get_wrong); if the first file cannot be opened, no file can be had at all (none_open).

### C119 Numbers of threads and deadlines (proved)

* Code: `src/vw/Core/Thread.cc: Thread::id`; `src/vw/Core/Thread.h: Thread::sleep_ms`; `src/vw/Core/Condition.h: Condition::timed_wait`
* Model and proofs: `Core/ThreadId.lean`
* Method: inductive invariant over interleavings: distinct numbers below the counter, the lock holder is the only writer
* Theorems: `Verif.Core.Thread.id_unique`, `Verif.Core.Thread.id_progress`, `Verif.Core.Thread.lock_holder`, `Verif.Core.Thread.deadline_spec`
* Limits: Small-step interleaving model; the counter is not bounded (2^64 threads in the code). Boost sleeps until the deadline by assumption.

### C120 RPC lens distortion (partial)

* Code: `src/vw/Camera/LensDistortion.cc: RpcDistortion, RPCLensDistortion::distorted_coordinates, undistorted_coordinates, validate_distortion_params, init_as_identity, increment_degree, unpack_params, pack_params, write, read, reset`; `src/vw/Camera/LensDistortion.h: RPCLensDistortion::rpc_degree, num_dist_params`
* Model and proofs: `Camera/RpcLensProps.lean`
* Method: loops with a running index are evaluated to double sums over graded monomials; triangular numbers; Newton for affine maps from C90
* Theorems: `Verif.Camera.Rpc.degree_count`, `Verif.Camera.Rpc.valid_iff`, `Verif.Camera.Rpc.pack_eq`, `Verif.Camera.Rpc.unpack_all`, `Verif.Camera.Rpc.unpack_valid`, `Verif.Camera.Rpc.distortion_value`, `Verif.Camera.Rpc.identity_value`, `Verif.Camera.Rpc.reset_spec`, `Verif.Camera.Rpc.increment_spec`, `Verif.Camera.Rpc.read_write`, `Verif.Camera.Rpc.read_valid`, `Verif.Camera.Rpc.read_ignores_leading`, `Verif.Camera.Rpc.read_negative_degree`, `Verif.Camera.Rpc.affine_round_trip`, `Verif.Camera.Rpc.tiny_focal`
* Limits: Refuted for files not written by the code: the leading numbers of the denominators are dropped unseen (read_ignores_leading), and a negative degree is accepted and kept (read_negative_degree). Numbers are exact, in files too.

### C121 Tsai, field of view, fisheye, Brown-Conrady, Photometrix lenses (partial)

* Code: `src/vw/Camera/LensDistortion.cc: LensDistortion::distorted_coordinates, TsaiDistortionNorm, TsaiDistortionJacobian, TsaiLensDistortion, FovLensDistortion, fishEyeDistortionNorm, FisheyeLensDistortion, BrownConradyDistortion, AdjTsaiDistortionNorm, AdjustableTsaiLensDistortion, PhotometrixLensDistortion, read_fields_in_vec`
* Model and proofs: `Camera/LensProps.lean`
* Method: real analysis: derivatives of polynomials, tan(tu) <= t tan u from a derivative sign, monotone bending; files as association lists
* Theorems: `Verif.Camera.Lens.lens_tiny_focal`, `Verif.Camera.Lens.tsai_formula`, `Verif.Camera.Lens.tsai_jacobian`, `Verif.Camera.Lens.tsai_zero`, `Verif.Camera.Lens.tsai_centre`, `Verif.Camera.Lens.tsai_scale_free`, `Verif.Camera.Lens.tsai_scale_wrong`, `Verif.Camera.Lens.adj_formula`, `Verif.Camera.Lens.adj_tsai`, `Verif.Camera.Lens.adj_zero`, `Verif.Camera.Lens.fov_accepts`, `Verif.Camera.Lens.fov_undistort_distort`, `Verif.Camera.Lens.fov_distort_undistort`, `Verif.Camera.Lens.fov_undistort_wraps`, `Verif.Camera.Lens.fov_large_flips`, `Verif.Camera.Lens.fisheye_formula`, `Verif.Camera.Lens.fisheye_injective`, `Verif.Camera.Lens.generic_distorted`, `Verif.Camera.Lens.generic_exact`, `Verif.Camera.Lens.photo_zero`, `Verif.Camera.Lens.photo_formula`, `Verif.Camera.Lens.brown_formula`, `Verif.Camera.Lens.brown_zero`, `Verif.Camera.Lens.photo_scale_wrong`, `Verif.Camera.Lens.read_perm`, `Verif.Camera.Lens.read_extra`, `Verif.Camera.Lens.read_write`, `Verif.Camera.Lens.lens_read_write`, `Verif.Camera.Lens.tsai_old_file`
* Limits: Refuted: scale of the Tsai and Photometrix models (tsai_scale_wrong, photo_scale_wrong); field of view undistortion outside the image circle (fov_undistort_wraps) and with parameters above pi, which are accepted (fov_large_flips). Zero parameters of the Brown-Conrady model shift by the principal point (brown_zero). Not proved: accuracy of the Newton inverse of the Tsai and fisheye models away from the centre; the text format of numbers.

### C122 Edges, points, polygons, boxes (partial)

* Code: `src/vw/Geometry/edgeUtils.cc: edgeIntersectsBox, edgeIntersectsHorizontalEdge, isPointOnEdge, collinearEdgesIntersect, edgesIntersect`; `src/vw/Geometry/geomUtils.cc: minDistFromPtToSeg, signedPolyArea, expandBoxToRatio, boxesIntersect, composeTransforms, transAroundPt, isPointInPolyOrOnEdges`
* Model and proofs: `Geom/Poly/AreaProps.lean`, `Geom/Poly/EdgeProps.lean`, `Geom/Poly/PolyProps.lean`
* Method: case analysis over ordered fields; winding numbers as sums of signed crossings; closed polygons as cyclic sums
* Theorems: `Verif.Geom.Poly.horizEdge_iff`, `Verif.Geom.Poly.edgeBox_iff`, `Verif.Geom.Poly.edgesIntersect_complete`, `Verif.Geom.Poly.edgesIntersect_point`, `Verif.Geom.Poly.edgesIntersect_parallel`, `Verif.Geom.Poly.edgesIntersect_gap`, `Verif.Geom.Poly.inPoly_iff`, `Verif.Geom.Poly.minPt_spec`, `Verif.Geom.Poly.minDist_spec`, `Verif.Geom.Poly.area_shoelace`, `Verif.Geom.Poly.area_transform`, `Verif.Geom.Poly.area_reverse`, `Verif.Geom.Poly.wind_reverse`, `Verif.Geom.Poly.boxesIntersect_iff`, `Verif.Geom.Poly.expandBox_spec`, `Verif.Geom.Poly.expandBox_other`, `Verif.Geom.Poly.transforms_spec`
* Limits: Refuted: collinear edges with a gap of up to about 1e-12 of the length are reported to intersect (edgesIntersect_gap; edgesIntersect_parallel is what holds). Exact arithmetic; the winding number is the signed number of crossings of a ray, whose direction does not matter (windRay_eq).

### C123 Clipping of polygons to a window (proved)

* Code: `src/vw/Geometry/cutPoly.cc: cutPoly, cutToHalfSpace, processPointsOnCutline`; `src/vw/Geometry/edgeUtils.cc: cutEdge`
* Model and proofs: `Geom/Poly/AreaProps.lean`, `Geom/Poly/CutProps.lean`, `Geom/Poly/Cycle.lean`, `Geom/Poly/Half.lean`, `Geom/Poly/PolyProps.lean`, `Geom/Poly/Wind.lean`
* Method: the emitted points are scanned with a state (is an edge due), which gives cyclic alternation of outward and inward points; the successor map is injective, so the components are its cycles; edges of the result = clipped edges + edges along the cutline; a ray away from the cutline crosses only the former; the direction of the ray does not matter
* Theorems: `Verif.Geom.Poly.cutPoly_in_window`, `Verif.Geom.Poly.cutPoly_inside`, `Verif.Geom.Poly.cutPoly_outside`, `Verif.Geom.Poly.cutPoly_unchanged`, `Verif.Geom.Poly.cutPoly_contains`, `Verif.Geom.Poly.cutToHalf_area`, `Verif.Geom.Poly.cutToHalf_edges`, `Verif.Geom.Poly.cutToHalf_vertices`, `Verif.Geom.Poly.cutEdge_spec`, `Verif.Geom.Poly.windRay_eq`, `Verif.Geom.Poly.components_spec`
* Limits: Exact arithmetic. Nothing is said about points on the border of the window or on input edges.

### C124 Editing a set of polygons (dPoly) (proved)

* Code: `src/vw/Geometry/dPoly.cc: appendPolygon, appendPolygons, appendRectangle, setPolygon, setRectangle, shift, rotate, scale, applyTransform, transformMarkedPolys, insertVertex, eraseVertex, changeVertexValue, shiftEdge, shiftOnePoly, shiftMarkedPolys, reverse, reverseMarkedPolys, extractOnePoly, extractMarkedPolys, appendAndShiftMarkedPolys, eraseMarkedPolys, eraseOnePoly, replaceOnePoly, set_color, set_isPolyClosed`; `src/vw/Geometry/geomUtils.h: eraseMarkedElements`
* Model and proofs: `Geom/DPoly/Edit.lean`, `Geom/DPoly/Erase.lean`, `Geom/DPoly/Ops.lean`
* Method: refinement: a representation relation to a list of polygons, kept by every operation; loops with running offsets by induction over the polygons
* Theorems: `Verif.Geom.Polys.rep_unique`, `Verif.Geom.Polys.appendPolygon_rep`, `Verif.Geom.Polys.appendPolygons_rep`, `Verif.Geom.Polys.appendRectangle_rep`, `Verif.Geom.Polys.setPolygon_rep`, `Verif.Geom.Polys.move_rep`, `Verif.Geom.Polys.transformMarked_rep`, `Verif.Geom.Polys.insertVertex_rep`, `Verif.Geom.Polys.eraseVertex_rep`, `Verif.Geom.Polys.changeVertex_rep`, `Verif.Geom.Polys.shiftEdge_rep`, `Verif.Geom.Polys.shiftOnePoly_rep`, `Verif.Geom.Polys.shiftMarked_rep`, `Verif.Geom.Polys.reverse_rep`, `Verif.Geom.Polys.reverseMarked_rep`, `Verif.Geom.Polys.extractOne_rep`, `Verif.Geom.Polys.extractMarked_rep`, `Verif.Geom.Polys.appendAndShift_rep`, `Verif.Geom.Polys.eraseMarkedElements_eq`, `Verif.Geom.Polys.eraseMarked_rep`, `Verif.Geom.Polys.eraseOne_rep`, `Verif.Geom.Polys.replaceOne_rep`, `Verif.Geom.Polys.setAttr_rep`
* Limits: Exact arithmetic. Rep relates the object to the list of polygons; indices are in range where the code asserts it.

### C125 Bounding boxes and closest vertices, edges and annotations (partial)

* Code: `src/vw/Geometry/dPoly.cc: bdBox, bdBoxes, bdBoxCenter, applyTransformAroundBdBoxCenter, findClosestPolyVertex, findClosestPolyEdge, findClosestAnnotation`
* Model and proofs: `Geom/DPoly/QueryProps.lean`
* Method: a fold that keeps the last minimum over the enumeration of all places
* Theorems: `Verif.Geom.Polys.bdBox_spec`, `Verif.Geom.Polys.aroundCenter_spec`, `Verif.Geom.Polys.closestVertex_spec`, `Verif.Geom.Polys.closestEdge_spec`, `Verif.Geom.Polys.closestEdge_open`, `Verif.Geom.Polys.closestAnno_spec`
* Limits: Refuted for edges of open polygonal lines: the closing edge, which does not exist, is searched as well (closestEdge_open). Exact arithmetic; the square root is any monotone function.

### C126 Sorting polygons by size (partial)

* Code: `src/vw/Geometry/dPoly.cc: sortFromLargestToSmallest, sortBySizeAndMaybeAddBigContainingRect`
* Model and proofs: `Geom/DPoly/SortProps.lean`
* Method: the sizes with their places are sorted; the copy loops are block assignments into arrays of the same total length
* Theorems: `Verif.Geom.Polys.sort_spec`, `Verif.Geom.Polys.sort_inside`, `Verif.Geom.Polys.sortRect_spec`, `Verif.Geom.Polys.sortRect_clockwise`
* Limits: Refuted for counter_cc = false: the added rectangle goes counterclockwise and has then itself a negative area (sortRect_clockwise). Exact arithmetic; std::sort is any function that returns a sorted permutation.

### C127 Clipping a set of polygons; polygons that intersect a box (partial)

* Code: `src/vw/Geometry/dPoly.cc: clipPoly, markPolysIntersectingBox, erasePolysIntersectingBox`; `src/vw/Geometry/cutPoly.cc: cutPoly, cutPolyLine`
* Model and proofs: `Geom/DPoly/ClipProps.lean`
* Method: the loop appends the pieces of each polygon; theorems of C123 for each; half-planes that contain the polygon contain the pieces
* Theorems: `Verif.Geom.Polys.clip_spec`, `Verif.Geom.Polys.clip_rep`, `Verif.Geom.Polys.pieces_clipped`, `Verif.Geom.Polys.mark_spec`, `Verif.Geom.Polys.mark_eq`, `Verif.Geom.Polys.eraseBox_spec`, `Verif.Geom.Polys.cutPoly_beyond`, `Verif.Geom.Polys.cutPoly_hull`
* Limits: Proved as stated; partial because for open lines that cross the border of the box only the position in the box, the unchanged and the vanishing cases are proved, not that the pieces are the parts of the line in the box. Exact arithmetic.

### C128 Polygons written to a file and read back (partial)

* Code: `src/vw/Geometry/dPoly.cc: writePoly, readPoly`; `src/vw/Geometry/geomUtils.cc: searchForLayer`
* Model and proofs: `Geom/DPoly/FileProps.lean`
* Method: simulation: the state of the reader after the lines written so far is the list of the polygons written so far
* Theorems: `Verif.Geom.Polys.file_roundtrip`, `Verif.Geom.Polys.cloud_roundtrip`, `Verif.Geom.Polys.file_opens`, `Verif.Geom.Polys.file_after_empty`, `Verif.Geom.Polys.file_blank`, `Verif.Geom.Polys.file_not_idempotent`
* Limits: Refuted: a closed polygon comes back open (file_opens) unless its first vertex is repeated, and a round trip can drop a further vertex (file_not_idempotent); after a polygon that has become empty, the following ones are written with the vertices of others (file_after_empty); with empty lines as separators all are read as one polygon (file_blank). A line of the file is modelled by what is read from it: the text of numbers, colors and layers is not modelled.

### C129 Distances between descriptors of interest points, and constraints on matches (partial)

* Code: `src/vw/InterestPoint/Matcher.cc: L2NormMetric, HammingMetric, ScaleOrientationConstraint, PositionConstraint`; `src/vw/Math/Functions.h: hamming_distance`
* Model and proofs: `IPMatch/Metric.lean`
* Method: induction over the descriptor with the partial sum; a word of bytes read at once differs in the bits in which its bytes do
* Theorems: `IPMatch.l2_spec`, `IPMatch.l2_metric`, `IPMatch.hammingWide_spec`, `IPMatch.hamming_metric_spec`, `IPMatch.oriDiff_spec`, `IPMatch.oriDiff_degrees`, `IPMatch.scaleOri_spec`, `IPMatch.position_spec`
* Limits: Refuted for orientations in degrees, which the points taken from OpenCV have: the angle is wrapped by 2 pi once (oriDiff_degrees). RelativeEntropyMetric is not modelled. Exact arithmetic, little endian, descriptors of equal length.

### C130 Matching of interest points (partial)

* Code: `src/vw/InterestPoint/Matcher.h: InterestPointMatcher::operator() (both), check_constraint, InterestPointMatcherSimple::operator()`
* Model and proofs: `IPMatch/MatchProps.lean`
* Method: the index loop is a flatMap of what each point adds; invariant of the best two so far for the simple matcher
* Theorems: `IPMatch.indices_spec`, `IPMatch.indices_length`, `IPMatch.pairs_spec`, `IPMatch.pairs_undefined`, `IPMatch.pairs_misaligned`, `IPMatch.simpleIndex_spec`, `IPMatch.simpleMatch_spec`, `IPMatch.simple_ambiguous`
* Limits: Refuted if a constraint rejects the nearest point of some point: it gets no entry in the index list, so the list is too short, later points are paired with matches of others and the end of the list is read (indices_length, pairs_undefined, pairs_misaligned); likewise if the second list is empty. The simple matcher matches a point with one of two identical descriptors (simple_ambiguous) and ignores its constraint. The FLANN search is a parameter.

### C131 Duplicates, order and selection of interest points (partial)

* Code: `src/vw/InterestPoint/Matcher.cc: remove_duplicates`; `src/vw/InterestPoint/InterestPoint.cc: InterestPointLessThan`; `src/vw/InterestPoint/Matcher.h: sort_interest_points`; `src/vw/InterestPoint/InterestPoint.h: crop`; `src/vw/InterestPoint/InterestPointUtils.h: remove_ip_near_nodata, pick_pair_subset`; `src/vw/Math/RandomSet.cc: pick_random_subset, pick_random_indices_in_range`
* Model and proofs: `IPMatch/Props.lean`
* Method: the reversed loop with its sets is a recursion from the end; lexicographic order for the comparison; permutations
* Theorems: `IPMatch.removeDuplicates_spec`, `IPMatch.removeDuplicates_throws`, `IPMatch.removeDuplicates_idem`, `IPMatch.lessThan_iff`, `IPMatch.lessThan_weak_order`, `IPMatch.sort_unique`, `IPMatch.sort_not_unique`, `IPMatch.cropReal_spec`, `IPMatch.cropInt_spec`, `IPMatch.cropInt_negative`, `IPMatch.removeNearNodata_spec`, `IPMatch.removeNearNodata_undefined`, `IPMatch.removeNearNodata_below`, `IPMatch.pickPairs_spec`
* Limits: Refuted: points that differ in the descriptor only have no unique order (sort_not_unique); an integer box takes in points left of it by less than 1 if it begins at 0 (cropInt_negative); removing the first point of the list decrements an iterator at the beginning (removeNearNodata_undefined); pixels below nodata count as data (removeNearNodata_below). Exact arithmetic, no NaN.

### C132 Quantiles of a stream of samples (partial)

* Code: `src/vw/Math/CDFAccumulator.cc: resize, update, operator(), quantile`
* Model and proofs: `CDF/Props.lean`
* Method: invariant over histories; for the merge loop: at the start of a round the last time and value coincide, the value is below everything not yet taken, the target is between the two times at the end
* Theorems: `CDF.run_inv`, `CDF.quantile_spec`, `CDF.first_batch_exact`, `CDF.quantile_unmerged`, `CDF.few_quantiles`
* Limits: Proved as stated for at least 32 quantiles (251 is the default). Refuted below: with nine, the probabilities at the start do not increase and the merge reads outside of the samples (few_quantiles). Samples still in the buffer are ignored by quantile; before the first merge it returns 0 (quantile_unmerged). approximate_mean and approximate_stddev are not modelled. Exact arithmetic.

### C133 Filling of holes in an image (partial)

* Code: `src/vw/Image/FillHoles.h: FillHoles, prerasterize`
* Model and proofs: `FillHoles/Props.lean`
* Method: search loops as first hit of a range, shifted by the origin of the tile; weighted means bounded; induction over smoothing passes
* Theorems: `FillHoles.raster_transparent`, `FillHoles.filled_iff`, `FillHoles.filled_bounds`, `FillHoles.filled_plane`, `FillHoles.smoothed_spec`, `FillHoles.raster_spec`, `FillHoles.smoothing_depends_on_tiles`
* Limits: Proved as stated, for any tile, except: with smoothing the values depend on the tiles (smoothing_depends_on_tiles; which pixels are filled and the range of their values do not). One channel, exact numbers; the kernels are any positive weights.

### C134 Growing a bounding sphere (partial)

* Code: `src/vw/Geometry/Sphere.h: SphereBase::grow`
* Model and proofs: `Sphere/Props.lean`
* Method: vectors along the line of the centers; triangle inequality; the far point of a ball
* Theorems: `Sphere.growPoint_spec`, `Sphere.growAll_contains`, `Sphere.growPoint_not_smallest`, `Sphere.growSphere_spec`
* Limits: Containment is proved for points. Refuted: the sphere grown is never the smallest, its radius is too large by the old radius (growPoint_not_smallest). Growing to a sphere covers it exactly if its radius is at most the distance of the centers plus twice the own radius; a sphere with the same center is ignored (growSphere_spec). Exact real arithmetic in any inner product space.

### C135 Containment, intersection and crop of spheres (partial)

* Code: `src/vw/Geometry/Sphere.h: SphereBase::contains, intersects, crop, expand, contract, operators`; `src/vw/Geometry/Sphere.h: Sphere (conversion)`
* Model and proofs: `Sphere/Props.lean`
* Method: Stewart identity for the distance from a point between the centers; far point and convex combination as witnesses
* Theorems: `Sphere.containsSphere_iff`, `Sphere.intersects_iff`, `Sphere.crop_spec`, `Sphere.crop_empty`, `Sphere.crop_enlarges`, `Sphere.motions`, `Sphere.emptiness`
* Limits: Proved except: cropping to an empty sphere changes nothing (crop_empty); crop may give a sphere larger than the own one (crop_enlarges); a sphere contracted by more than its radius or scaled by a negative number contains nothing and is not said to be empty, and converting an empty sphere to another type makes it non-empty (emptiness).

### C136 Masking blobs out of an image (proved)

* Code: `src/vw/Image/ErodeView.h: ErodeView, operator(), absorb, prerasterize`
* Model and proofs: `Erode/Props.lean`
* Method: invariant: segments of a row in order with gaps; induction over the merge loop, the runs, the rows and the blobs; induction over histories
* Theorems: `Erode.pixel_eq`, `Erode.create_spec`, `Erode.history_spec`, `Erode.raster_eq`
* Limits: Blobs as in C52 (decompress gives their pixels); runs are not empty, as in every blob that the library makes. Columns do not overflow. The mask shared between copies of a view is not modelled.

### C137 Patches over an image (partial)

* Code: `src/vw/Image/SparseView.h: SparseCompositeView, operator(), absorb`
* Model and proofs: `Sparse/Props.lean`
* Method: lookup by the next end as a recursive function; case analysis of the insertion; induction over strips, rows and patches; reachable views
* Theorems: `Sparse.View.pixel_eq`, `Sparse.insert_spec`, `Sparse.absorb_spec`, `Sparse.absorbAll_spec`, `Sparse.overlap_lost`
* Limits: Proved for patches that do not overlap, and that stored pixels never change. A strip is refused exactly if it overlaps and some strip of the row ends at its end or later (insert_spec): one that reaches farther right than all others is accepted, and part of it is lost (overlap_lost). After an exception the state is not modelled (rows before may have been absorbed). Columns do not overflow.

### C138 Pixels without data filled with averages (proved)

* Code: `src/vw/Image/InpaintView.h: FillNoDataWithAvg, operator(), prerasterize`
* Model and proofs: `NoData/Props.lean`
* Method: nested loops as a fold over a grid without duplicates, then as sums over a finite set; the window of a pixel of a tile is within the margin
* Theorems: `NoData.average_spec`, `NoData.average_isSome`, `NoData.average_bounds`, `NoData.avgRaster_eq`, `NoData.accepted_iff`, `NoData.accepted_half`
* Limits: One channel of exact numbers; integer pixel types truncate the mean.

### C139 Pixels without data filled from a search radius (proved)

* Code: `src/vw/Image/InpaintView.cc: fillNodataWithSearchRadius`
* Model and proofs: `NoData/Props.lean`
* Method: the search as sums over the disk; positive weights; induction over passes
* Theorems: `NoData.passAt_spec`, `NoData.passAt_bounds`, `NoData.passAt_negative`, `NoData.passes_keep`, `NoData.passes_size`, `NoData.passes_bounds`, `NoData.passes_reach`
* Limits: Exact numbers; the power is a parameter with values that are not negative (rounding and infinite powers are not modelled).

### C140 Filling of blobs (partial)

* Code: `src/vw/Image/InpaintView.h: InpaintView, prerasterize`; `src/vw/Image/InpaintView.h: InpaintTask`
* Model and proofs: `Inpaint/Props.lean`
* Method: reuse of C52 (blobs), C137 (patches) and C50 (distances); the box copied for a tile contains the boxes of the blobs that touch it; invariant of the in-place rounds; one pixel holes by a fixed point
* Theorems: `Inpaint.prerasterize_spec`, `Inpaint.task_spec`, `Inpaint.newValue_default`, `Inpaint.newValue_bounds`, `Inpaint.newValue_dot`, `Inpaint.processed_iff`, `Inpaint.right_edge_not_filled`, `Inpaint.hole_values_matter`
* Limits: Proved: nothing outside of blobs changes, blobs one pixel from the left and top and two from the right and bottom edges are filled, no dependence on tiles. Refuted: a blob one pixel away from the right or bottom edge is not filled (right_edge_not_filled); with grassfire the pixels in the hole count too: the bounds include them (newValue_bounds), and they matter (hole_values_matter), except for holes of one pixel (newValue_dot). Exact numbers, one channel; FillHolesGrass (which makes an index per tile) is not modelled.

### C141 Disparities refined by a parabola (partial)

* Code: `src/vw/Stereo/ParabolaSubpixelView.cc: evaluate`; `src/vw/Stereo/ParabolaSubpixelView.h: ParabolaSubpixelView`; `src/vw/Stereo/SGMAssist.h: ParabolaFit2d`
* Model and proofs: `Stereo/ParabolaProps.lean`
* Method: a fold over places where each slot has one source; normal equations as a polynomial identity; completing squares; explicit surfaces for the refutations
* Theorems: `Parabola.collect_spec`, `Parabola.fit_least`, `Parabola.fit_exact`, `Parabola.offset_flat`, `Parabola.offset_lowest`, `Parabola.refine_spec`, `Parabola.refine_flat`, `Parabola.refine_exact`, `Parabola.refine_saddle`, `Parabola.refine_far`, `Parabola.findPeak_spec`, `Parabola.findPeak_exact`
* Limits: Proved: the nine costs are the right ones (for a zone whose range has the disparity; zones are C64/C65), the fit is the one of least squares and exact for surfaces, the result is at the lowest point if there is one less than 5 pixels away. Refuted: the surface may be a saddle or a maximum, and its flat point is used all the same (refine_saddle); the lowest point may be more than a pixel away (refine_far, up to 5 pixels are accepted). Reals without rounding; the images and their filters are not modelled; erf is a parameter.

### C142 Moving count of valid pixels (proved)

* Code: `src/vw/Stereo/SGMAssist.h: IterativeMaskBoxCounter`
* Model and proofs: `Stereo/ParabolaProps.lean`
* Method: invariant over reachable states: the queue holds the column sums of the box
* Theorems: `Parabola.next_spec`, `Parabola.advance_spec`
* Limits: For boxes of at least one column; places of the box must be in the mask.

### C143 Extent of a mosaic (partial)

* Code: `src/vw/Mosaic/ImageComposite.h: insert`; `src/vw/Mosaic/ImageComposite.h: prepare`; `src/vw/Mosaic/ImageComposite.h: sparse_check`; `src/vw/Mosaic/ImageComposite.h: cols, rows, bbox`
* Model and proofs: `Composite/Props.lean`
* Method: induction over the list of insertions, with the least box as invariant
* Theorems: `Composite.build_spec`, `Composite.prepare_spec`, `Composite.prepareIn_spec`, `Composite.prepare_twice`, `Composite.sparseCheck_iff`
* Limits: All proved but the last sentence, which is refuted: prepare_twice shows that a second call changes the places unless the mosaic begins at (0, 0). Integers without overflow.

### C144 Masks of a mosaic (partial)

* Code: `src/vw/Mosaic/ImageComposite.h: generate_masks`; `src/vw/Mosaic/ImageComposite.h: GrassfireGenerator`; `src/vw/Image/Algorithms.h: threshold`
* Model and proofs: `Composite/Masks.lean`
* Method: a fold whose state is either the own distance, when nothing has beaten it so far, or 0; a maximum over a finite set
* Theorems: `Composite.mask_iff`, `Composite.masks_partition`, `Composite.fire_pos`, `Composite.masks_of_alphas`, `Composite.thin_source_lost`
* Limits: Proved for any sources in terms of their distances (mask_iff, masks_partition), and in terms of their alphas for sources of at least two columns and rows (masks_of_alphas, through C50). Refuted for thinner sources: their masks are empty (thin_source_lost). The files the masks are written to are not modelled; distances are whole numbers without overflow or rounding to float (exact below 2^24).

### C145 Mosaic in draft mode (proved)

* Code: `src/vw/Mosaic/ImageComposite.h: draft_patch`; `src/vw/Mosaic/ImageComposite.h: addto`; `src/vw/Mosaic/ImageComposite.h: operator()`
* Model and proofs: `Composite/Draft.lean`
* Method: each turn of the loop is one pixel over another, by boxes; induction over the list of sources
* Theorems: `Composite.draft_spec`, `Composite.draft_patches_agree`, `Composite.draftAt_spec`, `Composite.stack_opaque`, `Composite.stack_hides`, `Composite.stack_transparent`, `Composite.stack_alpha`, `Composite.sparse_black`
* Limits: For channels that are rational numbers with maximum 1 (float pixels without rounding).

### C146 Sources of a blended patch (partial)

* Code: `src/vw/Mosaic/ImageComposite.h: blend_patch`; `src/vw/Mosaic/ImageComposite.h: reduce`; `src/vw/Mosaic/ImageComposite.h: PyramidGenerator::generate`
* Model and proofs: `Composite/Blend.lean`
* Method: induction over the levels with the box as x/2 and x/2+1; a relation of which pixel feeds which; two opaque sources for the refutation
* Theorems: `Composite.levels_suffice`, `Composite.crop_inside`, `Composite.listed_of_feeds`, `Composite.listed_of_meets`, `Composite.reduce_spec`, `Composite.smooth_outside`, `Composite.last_column_repeated`, `Composite.blend_depends_on_patch`, `Composite.alphaAt_spec`, `Composite.maskSum_spec`
* Limits: Proved: the levels suffice, all sources that have a part by smoothing are listed, a reduced image has the smoothed values wherever its kernel touches the image, the greatest alpha. Refuted: the last column of a reduced image is repeated (last_column_repeated), so that the sum of the masks at a pixel differs between patches (blend_depends_on_patch). The colours of the pyramids (differences, enlargement, division by the sum of masks) are not modelled.

### C147 Levels of a pyramid on disk (partial)

* Code: `src/vw/Mosaic/DiskImagePyramid.h: DiskImagePyramid`; `src/vw/Mosaic/DiskImagePyramid.h: overwrite_if_no_good`; `src/vw/Image/AntiAliasing.h: resample_aa`
* Model and proofs: `DiskPyr/Props.lean`
* Method: the loop with fuel, shown to suffice; rounding errors summed as a geometric series
* Theorems: `DiskPyr.make_spec`, `DiskPyr.make_refuses`, `DiskPyr.size_near`, `DiskPyr.size_pos`, `DiskPyr.empty_level`, `DiskPyr.overwrite_iff`
* Limits: All proved, but that each level has a pixel: true for factor 2 (size_pos), refuted for every greater factor by an image of one column (empty_level). The factor 1/subsample is exact; the pixels of the levels are not modelled.

### C148 Clip of a pyramid at a scale (partial)

* Code: `src/vw/Mosaic/DiskImagePyramid.h: pyramidLevel`; `src/vw/Mosaic/DiskImagePyramid.h: get_image_clip`
* Model and proofs: `DiskPyr/Props.lean`
* Method: invariant of the search with increasing scales; division with remainder
* Theorems: `DiskPyr.pyramidLevel_spec`, `DiskPyr.scales_increase`, `DiskPyr.clip_scale`, `DiskPyr.clip_pixels`, `DiskPyr.clip_aligned`, `DiskPyr.clip_misses`
* Limits: Proved: the level and the scale; exactly which pixels are in the clip (those whose last column and row at full resolution are in the region); for regions that end at multiples of the scale everything is covered (as far as the level goes). Refuted in general: the last columns and rows of a region may be missed, and a region smaller than the scale may give an empty clip (clip_misses).

### C149 Approximate bounds of an image (proved)

* Code: `src/vw/Mosaic/DiskImagePyramid.h: approx_bounds_nocache`; `src/vw/Math/Statistics.h: find_outlier_brackets`
* Model and proofs: `DiskPyr/Props.lean`
* Method: through C37 (outlier brackets) and sorted lists; ceiling of a quotient
* Theorems: `DiskPyr.steps_mem`, `DiskPyr.steps_few`, `DiskPyr.samples_mem`, `DiskPyr.bounds_spec`
* Limits: Doubles are rational numbers without rounding, NaN is a pixel without a value.

### C150 Census codes of a pixel (proved)

* Code: `src/vw/Image/CensusTransform.h: get_census_value_3x3`; `src/vw/Image/CensusTransform.h: get_census_value_9x9`; `src/vw/Image/CensusTransform.h: get_census_value_ternary_7x7`
* Model and proofs: `Stereo/CensusProps.lean`
* Method: invariant of the loops modulo 2^w: output plus addend times the number with the remaining bits; patterns by evaluation
* Theorems: `Census.binary_codes`, `Census.ternary_codes`, `Census.patterns`, `Census.binaryCode_unique`, `Census.binary_invariant`
* Limits: The pictures in the comments are the specification of the patterns of 32 pixels.

### C151 Matching costs from census codes (partial)

* Code: `src/vw/Stereo/SGM.cc: get_hamming_distance_costs`; `src/vw/Stereo/SGM.cc: SemiGlobalMatcher::compute_disparity_costs`; `src/vw/Stereo/SGM.cc: SemiGlobalMatcher::fill_costs_census5x5`; `src/vw/Math/Functions.h: hamming_distance`
* Model and proofs: `Stereo/CensusProps.lean`
* Method: popcount of an exclusive or of bit lists by induction; offsets of a flatMap as sums of lengths
* Theorems: `Census.cost_binary_spec`, `Census.cost_ternary_spec_partial`, `Census.cost_ternary5`, `Census.ternary5_misses`, `Census.costOf_other`, `Census.costBuffer_spec`
* Limits: Proved for all binary kernels and ternary 3, 7, 9. Refuted for ternary 5x5: the code of 48 bits is put into an image of 32 bits, so only 16 of the 24 pixels count (cost_ternary5 is exact; ternary5_misses: five pixels differ, the cost is 0).

### C152 Threshold of Otsu (proved)

* Code: `src/vw/Image/ImageThresh.h: otsu_threshold`; `src/vw/Image/ImageThresh.h: histogram`; `src/vw/Image/Statistics.h: find_image_min_max`; `src/vw/Math/Statistics.h: Histogram`
* Model and proofs: `Otsu/Props.lean`
* Method: between-class variance plus variance within the classes is the total variance; invariants of the accumulators
* Theorems: `Otsu.between_spec`, `Otsu.otsu_spec`, `Otsu.otsu_range`
* Limits: Doubles are rational numbers without rounding: with rounding, equal variances may not compare equal and the mean index is then that of fewer places.

### C153 Threshold of Otsu from samples (partial)

* Code: `src/vw/Image/ImageThresh.h: otsu_threshold`
* Model and proofs: `Otsu/Props.lean`
* Method: invariant of the loop over the bins with the skipped empty classes; first maximum against the mean of all
* Theorems: `Otsu.samples_spec`, `Otsu.samples_one`, `Otsu.otsuSampled_spec`, `Otsu.same_iff`, `Otsu.versions_differ`
* Limits: Proved: the samples; up to 2^23 samples the result is the level at the first best place to split; the two versions agree exactly if there is only one best place. Refuted: for an image of two values the first version gives 127/255 of the range, the second one the lower value (versions_differ); one sample row or column is undefined (samples_one).

### C154 Conversion of images to 8 bits (proved)

* Code: `src/vw/Image/ImageThresh.h: u8_convert`; `src/vw/Image/ImageThresh.h: percentile_scale_convert`; `src/vw/Image/Algorithms.h: clamp`; `src/vw/Image/Algorithms.h: normalize`
* Model and proofs: `Otsu/Convert.lean`
* Method: through C49 (percentile bin); floor and monotonicity
* Theorems: `Otsu.u8_spec`, `Otsu.stretch_mono`, `Otsu.percentileBounds_spec`, `Otsu.percentileConvert_spec`, `Otsu.mostly_one_value`
* Limits: Floating-point pixels, all valid, exact arithmetic. If both percentiles fall in one bin (for example when 98 percent of the pixels have the least value), the image becomes all 0 (mostly_one_value).

### C155 Peaks of an interest image (proved)

* Code: `src/vw/InterestPoint/Extrema.h: find_peaks`; `src/vw/InterestPoint/Extrema.h: is_local_max`; `src/vw/InterestPoint/Extrema.h: is_local_min`; `src/vw/InterestPoint/Extrema.h: is_local_minmax`; `src/vw/InterestPoint/Extrema.h: is_extremum`; `src/vw/InterestPoint/Extrema.h: IsSpatialExtremum`
* Model and proofs: `Peaks/Props.lean`
* Method: loops as filtered lists; the eight comparisons against the neighbourhood
* Theorems: `Peaks.findPeaks_spec`, `Peaks.maxima_apart`, `Peaks.no_peaks`
* Limits: Interest values are elements of a linear order (no NaN).

### C156 Peaks in a scale space (partial)

* Code: `src/vw/InterestPoint/Extrema.h: find_peaks`; `src/vw/InterestPoint/Extrema.h: is_local_max`; `src/vw/InterestPoint/Extrema.h: is_local_min`; `src/vw/InterestPoint/Extrema.h: IsScaleExtremum`; `src/vw/InterestPoint/ImageOctave.h: ImageOctave`
* Model and proofs: `Peaks/Props.lean`
* Method: as C155 with a loop over planes; induction over octaves on the squares of the sigmas
* Theorems: `Peaks.findPeaks3_throw`, `Peaks.findPeaks3_spec_partial`, `Peaks.scale_diagonal_missed`, `Peaks.sigma_octave`, `Peaks.octave_spec`, `Peaks.scale_is_blur`, `Peaks.scale_roundtrip`, `Peaks.not_closest`
* Limits: Refuted: only the same pixel in the planes below and above is compared, so a reported point may be less than a pixel beside it in the next plane (scale_diagonal_missed; the code has a TODO); scale_to_plane_index cuts instead of rounding (not_closest). Proved: exactly the points extreme among these ten neighbours are found; the blur of all planes of all octaves. Blurs are followed by their sigmas (adding in quadrature, subsampling halves), in exact arithmetic.

### C157 Deviation filter (partial)

* Code: `src/vw/Image/WindowAlgorithms.h: StdDevView`; `src/vw/Image/WindowAlgorithms.h: stddev_filter_view`; `src/vw/Math/Functors.h: StdDevSlidingFunctor`
* Model and proofs: `Window/Props.lean`
* Method: the values pushed are whole columns, the last w x h of them are the window; C49 for the sums
* Theorems: `Window.stdDev_spec_partial`, `Window.stdDev_odd_partial`, `Window.stdDev_tile`, `Window.high_window_undefined`, `Window.invalid_poisons`, `Window.invalid_drops_valid`
* Limits: Proved for images without invalid pixels and windows of odd height not higher than wide; for an even width the window lies to the right. Refuted: windows higher than wide read outside of the copied region (high_window_undefined); an invalid pixel takes the oldest value out of the window, giving NaN or wrong values (invalid_poisons, invalid_drops_valid). Not treated: even heights. Exact arithmetic, squares of the deviations.

### C158 Median filter (proved)

* Code: `src/vw/Image/WindowAlgorithms.h: WindowFunctionView`; `src/vw/Image/WindowAlgorithms.h: WindowMedianFunctor`; `src/vw/Image/WindowAlgorithms.h: median_filter_view`
* Model and proofs: `Window/Props.lean`
* Method: the store has the size of the window before and after each call; C37 for the median
* Theorems: `Window.medianAt_spec`, `Window.medianTile_eq`, `Window.one_pixel_throws`
* Limits: For windows of at least two pixels; with a 1x1 window an invalid pixel makes the filter throw (one_pixel_throws). The product with 0.9 is exact.

### C159 Bounded distance function (proved)

* Code: `src/vw/Image/DistanceFunction.cc: bounded_dist`
* Model and proofs: `Dist/Props.lean`
* Method: the loops as updates of one pixel; on the way to the nearest invalid pixel there is a boundary pixel not farther away; in the order of the loops values only decrease
* Theorems: `Dist.boundedDist_spec`
* Limits: Distances are real numbers (exact arithmetic).

### C160 Bounded signed distance function (proved)

* Code: `src/vw/Image/DistanceFunction.h: bounded_signed_dist`
* Model and proofs: `Dist/Props.lean`
* Method: as C159
* Theorems: `Dist.boundedSignedDist_spec`, `Dist.signed_sign`
* Limits: Distances are real numbers (exact arithmetic).

### C161 Catmull-Rom curves (partial)

* Code: `src/vw/Math/Catmull_Rom_spline.h: catmull_rom`; `src/vw/Math/Catmull_Rom_spline.h: catmull_rom::operator()`; `src/vw/Math/Catmull_Rom_spline.h: catmull_rom::prime`; `src/vw/Math/Catmull_Rom_spline.h: alpha_distance`
* Model and proofs: `Spline/Props.lean`
* Method: knots increase, so the search finds the piece; each piece is an interpolation of interpolations, its derivative by the product rule; both pieces have the same tangent at a point
* Theorems: `Spline.make_spec`, `Spline.eval_spec_partial`, `Spline.through_points`, `Spline.smooth`, `Spline.prime_at_points_partial`, `Spline.prime_iff`, `Spline.prime_wrong_between`, `Spline.closed_end_undefined`
* Limits: Refuted: prime is the derivative at the control points only (prime_at_points_partial), and differs between them unless the chords continue with one velocity (prime_iff, prime_wrong_between); a closed curve at its greatest parameter reads past the end of its knots (closed_end_undefined). Proved: everything else, for the closed curve below its end. Exact real arithmetic; the moves of the points within the vector are not followed.

### C162 Subpixel fit of peaks (partial)

* Code: `src/vw/InterestPoint/Localize.h: fit_peak_1D`; `src/vw/InterestPoint/Localize.h: fit_peak`
* Model and proofs: `Orient/Props.lean`
* Method: algebra of parabolas; case analysis on the reads
* Theorems: `Orient.fit_vertex`, `Orient.parabola_exists`, `Orient.fit_strict`, `Orient.fitPeak_peak`, `Orient.fitPeak_frame`, `Orient.fitPeak_rejected`, `Orient.fitPeak_outside`, `Orient.fitPeakScale_peak`, `Orient.flat_nan`, `Orient.rejected_but_moved`
* Limits: Refuted: in a flat neighbourhood the point is accepted with NaN as position (flat_nan); a point rejected for its scale has been moved already (rejected_but_moved); points at the border are read outside of the image (fitPeak_outside). Everything else proved, in exact arithmetic; the conversions between scale and plane are parameters (C156).

### C163 Histograms of orientations (partial)

* Code: `src/vw/InterestPoint/WeightedHistogram.h: weighted_histogram`; `src/vw/InterestPoint/WeightedHistogram.h: orientation_interpolate`; `src/vw/InterestPoint/WeightedHistogram.h: orientation_histogram`; `src/vw/InterestPoint/WeightedHistogram.h: non_max_suppression`; `src/vw/InterestPoint/WeightedHistogram.h: filter_1d`; `src/vw/InterestPoint/WeightedHistogram.h: find_weighted_histogram_mode`
* Model and proofs: `Orient/HistProps.lean`
* Method: folds as sums; pointwise description of the updates; sums over a period; first greatest element by induction
* Theorems: `Orient.weightedHistogram_spec_partial`, `Orient.inBin_unique`, `Orient.below_counted`, `Orient.interpolation_wrong`, `Orient.share_wrong`, `Orient.interpolate_sum`, `Orient.pi_outside`, `Orient.only_centre`, `Orient.nonMax_spec`, `Orient.filter_wrap`, `Orient.filter_plain`, `Orient.filter_even`, `Orient.filter_wrap_outside`, `Orient.filter_wrap_sum`, `Orient.modes_spec_partial`, `Orient.modes_empty`, `Orient.low_mode_reported`, `Orient.equal_mode_missed`
* Limits: Refuted: values up to one and a half bins below the range are counted in the first bin (below_counted); shares of orientations are right in a single bin only (interpolation_wrong) and an orientation of pi is written past the end (pi_outside); the histogram of a region uses its centre only (only_centre); a wrapped kernel reaching farther than the vector reads outside (filter_wrap_outside); modes are compared with the number of the first bin instead of its value and the second one is given four times (modes_spec_partial, low_mode_reported, equal_mode_missed). Proved: everything else. Exact arithmetic; the Gaussian kernels are not modelled.

### C164 Orthonormal bases and plane tangents (partial)

* Code: `src/vw/Math/VectorUtils.cc: formBasis`; `src/vw/Math/VectorUtils.cc: computePlaneTangents`
* Model and proofs: `VecUtil/Props.lean`
* Method: the two components besides the largest; identities of dot and cross products
* Theorems: `VecUtil.formBasis_spec_partial`, `VecUtil.up_nan`, `VecUtil.planeTangents_spec_partial`, `VecUtil.tangents_not_perpendicular`
* Limits: Refuted: for vectors along an axis formBasis gives NaN, exactly for these (formBasis_spec_partial, up_nan); the tangents are perpendicular to each other only for normals in a vertical coordinate plane (tangents_not_perpendicular). Everything else proved, in exact real arithmetic; the tangents are independent.

### C165 Rounding to integers with clamping (partial)

* Code: `src/vw/Image/RoundAndClamp.h: round_and_clamp`
* Model and proofs: `VecUtil/Props.lean`
* Method: floor and ceiling; cases of the clamp
* Theorems: `VecUtil.round_nearest`, `VecUtil.nearest_unique`, `VecUtil.roundAndClamp_spec`, `VecUtil.clamp_64`
* Limits: Proved for all types whose limits are exact as double (8, 16, 32 bits). Refuted for 64 bits: the upper limit is rounded up, so great values are converted out of range (clamp_64). NaN is not treated.

### C166 Box filters and the interest of OBALoG (proved)

* Code: `src/vw/InterestPoint/BoxFilter.h: apply_box_filter_at_point`; `src/vw/InterestPoint/BoxFilter.h: BoxFilterView`; `src/vw/InterestPoint/BoxFilter.h: box_filter`; `src/vw/InterestPoint/IntegralInterestOperator.h: OBALoGInterestOperator`; `src/vw/InterestPoint/IntegralInterestOperator.cc: SCALE_BOX_WIDTH`
* Model and proofs: `BoxFilter/Props.lean`
* Method: C32 for each box; the tables are checked by the kernel; sums over boxes by permutation
* Theorems: `BoxFilter.view_spec`, `BoxFilter.obalog_centred`, `BoxFilter.interest_spec`, `BoxFilter.obalog_borders`, `BoxFilter.interest_transpose`, `BoxFilter.interest_flat`, `BoxFilter.not_centred_outside`
* Limits: One plane, exact arithmetic. Boxes that are not centred are read outside of the image (not_centred_outside); none are made by the library.

### C167 Error of projecting a point in a linescan camera (proved)

* Code: `src/vw/Camera/LinescanErr.cc: findPerpVecs`; `src/vw/Camera/LinescanErr.cc: LinescanErr::operator()`
* Model and proofs: `Linescan/Props.lean`
* Method: the smallest coordinate is not the only nonzero one; unit vectors with equal components across an axis and on the same side agree
* Theorems: `Linescan.findPerpVecs_spec`, `Linescan.unit_eq`, `Linescan.err_zero`
* Limits: Exact real arithmetic. For unit pixel directions and both rays on the same side as the ray of the guess; a pixel looking the opposite way is excluded by this.

### C168 Demosaicing of Bayer images (partial)

* Code: `src/vw/Camera/BayerFilter.h: inverse_bayer_filter`
* Model and proofs: `Bayer/Props.lean`
* Method: parities of the four cases; linear arithmetic
* Theorems: `Bayer.recorded_partial`, `Bayer.uniform_partial`, `Bayer.bounded`, `Bayer.moved`, `Bayer.dark_edge`
* Limits: Refuted as stated: the result is the image moved by one pixel left and up (moved), and the last two columns and rows are averaged with zeros (dark_edge). Proved up to this move and away from these borders. Channels are integers whose sums do not overflow.

### C169 Matrices in text files and as images (partial)

* Code: `src/vw/FileIO/MatrixIO.cc: write_matrix_as_txt`; `src/vw/FileIO/MatrixIO.cc: read_matrix_as_txt`; `src/vw/FileIO/MatrixIO.h: write_matrix`; `src/vw/FileIO/MatrixIO.h: read_matrix`
* Model and proofs: `MatText/Props.lean`
* Method: the text of a row by induction; getline and >> undo it line by line
* Theorems: `MatText.read_write_partial`, `MatText.read_spec`, `MatText.empty_lost`, `MatText.nan_lost`, `MatText.blank_line`, `MatText.image_back`, `MatText.digits_faithful`
* Limits: Proved for matrices with rows and columns and values that >> reads back as << printed them (a hypothesis on the number format, shown to be met by an example). Refuted: matrices without rows or columns cannot be read (empty_lost), values such as nan silently end their row (nan_lost), a blank line at the end throws (blank_line).

### C170 Paths and lists of files (partial)

* Code: `src/vw/FileIO/FileUtils.cc: make_file_relative_to_dir`; `src/vw/FileIO/FileUtils.cc: prefix_from_filename`; `src/vw/FileIO/FileUtils.cc: get_folder`; `src/vw/FileIO/FileUtils.cc: get_files_in_folder`; `src/vw/FileIO/FileUtils.cc: get_files_with_prefix`; `src/vw/FileIO/FileTypes.cc: get_files_with_ext`
* Model and proofs: `Paths/Props.lean`
* Method: common part of both paths; following ".." undoes the rest of the directory; position of the last dot; loop invariants on the iterator
* Theorems: `Paths.makeRelative_spec_partial`, `Paths.makeRelative_inside`, `Paths.dir_wrong`, `Paths.prefix_spec_partial`, `Paths.prefix_dir`, `Paths.filesWithPrefix_spec_partial`, `Paths.prefix_is_dir`, `Paths.filesWithExt_spec`
* Limits: Posix paths as Boost iterates over them, no symbolic links. Refuted: directories with ".", ".." or a slash at the end give a wrong path (dir_wrong); the dot of a directory is taken for an extension (prefix_dir); a prefix that names a directory too finds other files (prefix_is_dir).

### C171 Two-threshold fill (partial)

* Code: `src/vw/Image/ImageSurface.h: TwoThresholdFill`; `src/vw/Image/ImageSurface.h: two_threshold_fill`
* Model and proofs: `Surface/FillProps.lean`
* Method: invariants of both passes along the order of the pixels
* Theorems: `Surface.fill_iff`, `Surface.fill_sound_partial`, `Surface.not_flood`, `Surface.false_not_zero`, `Surface.block_sound`, `Surface.block_loses`
* Limits: Refuted as stated: ways that go up and then down again are not followed (not_flood), a value for false other than 0 marks too much (false_not_zero), blocks lose pixels (block_loses). Proved: exactly what is marked, for all images (fill_iff); all of it is in the flood fill; a block marks nothing that the whole image would not (block_sound).

### C172 Normals and shading of surfaces (proved)

* Code: `src/vw/Image/ImageSurface.h: ComputeNormalsFunc`; `src/vw/Image/ImageSurface.h: compute_normals`; `src/vw/Image/ImageSurface.h: DotProdFunc`; `src/vw/Cartography/Hillshade.cc: do_hillshade`
* Model and proofs: `Surface/NormalsProps.lean`
* Method: identities of dot and cross products; squares of sums
* Theorems: `Surface.normal_spec`, `Surface.plane_normal`, `Surface.border_flat`, `Surface.shade_spec`
* Limits: Exact real arithmetic. For maps with north up (scales of opposite sign) the normals point down. In the last column and row the slope across the border counts as 0. Of do_hillshade only the normals and the shading are modelled, not reading, the choice of the light vector, blurring and writing.

### C173 Filling the colours of transparent pixels (proved)

* Code: `src/vw/Image/ImageSurface.h: MeanFillTransparent`; `src/vw/Image/ImageSurface.h: mean_fill_transparent`
* Model and proofs: `Surface/NormalsProps.lean`
* Method: the path of the accessor visits each neighbour once; weighted means
* Theorems: `Surface.meanFill_spec`, `Surface.meanFill_bounds`
* Limits: Exact arithmetic, channel by channel; alphas not negative. At the border pixels of the image count again for neighbours outside (constant extension), which is what the code does.

### C174 Colour maps (partial)

* Code: `src/vw/Image/Colormap.cc: Colormap::operator()`; `src/vw/Image/Colormap.cc: populate_lut_map`; `src/vw/Image/Colormap.cc: parseColorStyle`
* Model and proofs: `Colormap/Props.lean`
* Method: the entries around a value in a sorted list; rounding between integers; invariant of the assignments
* Theorems: `Colormap.colorAt_spec`, `Colormap.populate_spec_partial`, `Colormap.round_near`, `Colormap.below_first`, `Colormap.one_key`, `Colormap.skipped_counts`, `Colormap.last_line_lost`
* Limits: Exact arithmetic, channel by channel. Proved for all maps and all lists of plain numbers with two different keys. Refuted: values below the first key (percentages from above 0) step before the first entry (below_first); a file of one key divides by 0 (one_key); a skipped line still counts as key 0 (skipped_counts); the last line of a file without an end of line is lost (last_line_lost). The splitting of lines and the built-in tables are not modelled.

### C175 The box of the data of an image (proved)

* Code: `src/vw/Image/ImageOpacity.h: nonzero_data_bounding_box`; `src/vw/Image/ImageOpacity.h: is_opaque`; `src/vw/Image/ImageOpacity.h: is_transparent`
* Model and proofs: `Opacity/Props.lean`
* Method: first and last true index of a loop; columns are searched only in the rows with data
* Theorems: `Opacity.nonzeroBox_spec`, `Opacity.nonzeroBox_least`, `Opacity.allPx_spec`
* Limits: Proved for images of all sizes. The choice by pixel type (images without alpha) is not modelled.

### C176 Relative orientation of two sets of vectors (proved)

* Code: `src/vw/Math/PoseEstimation.h: relative_orientation`
* Model and proofs: `Pose/Props.lean`
* Method: the error as a quadratic form on the sphere; least value by compactness; there the form has an eigenvector
* Theorems: `Pose.relativeOrientation_spec`, `Pose.relativeOrientation_exact`, `Pose.quarter_solves`, `Pose.quarter_found`
* Limits: Exact arithmetic. The solver (LAPACK) is a parameter: hypothesis is that it gives unit eigenvectors and misses no eigenvalue. The check of the sizes is not modelled (pairs).

### C177 The comparison of two datums (proved)

* Code: `src/vw/Cartography/DatumUtils.cc: checkDatumConsistency`
* Model and proofs: `DatumCheck/Props.lean`
* Method: case analysis on the comparisons
* Theorems: `DatumCheck.check_spec`, `DatumCheck.check_comm`
* Limits: Exact arithmetic; the text of the message is not modelled.

## 4. Discrepancies found while modelling

Those with a theorem are in the notes above. Others, seen in the text of the code and not (or only partly) proved:

* Cache: `try_invalidate` calls `info()` (a read lock) while holding the exclusive lock, so cache debug logging can
  deadlock; after two overlapping misses charged a line twice, `resize(0)` throws.
* Quad tree: a zero-size image takes the logarithm of zero; rounding of the logarithm can lose a level.
* Block views: negative pixel coordinates with a cache are undefined behaviour.
* `CropView`'s box constructor rounds; `find_image_min_max` without a valid pixel returns the extreme values.
* `BlobIndexThreaded`: boxes of a single tile stay stale after culling; culling the first blob moves an iterator
  before the beginning; float `ceil` in the tile count is exact only below 2^24.
* Settings: log files are added again on each reload; a file that cannot be read is not tried again.
* `MatrixSparseSkyline::operator=` clears the skyline; reads through a non-const object lower it.
* Chipper: block size 0 divides by zero; the code for narrow extents is dead.
* `write_binary_match_file` empties the file before it checks the sizes.
* SGM: MGM tasks call `get_path_pixel_diff` with the opposite sign; an exception leaks a line buffer.
* `SpatialTree`: growing a tree by a factor of more than 2^31 shifts a 32-bit integer by 32 or more; the elements moved
  by `add` are taken from the first node whose list was looked at, whether or not it was split.
* `FrameStore::set_transform` and `get_transform` on frames of different trees use the identity without an error;
  `frame_names` and the other traversals recurse over siblings, so that the stack grows with the number of children.
* `CameraRelationNetwork::from_cnet`: a control point without measures is undefined behaviour (`end() - 1` of an empty
  vector).
* `RandomSampleConsensus`: an exception of the fitting functor in the parallel loop ends the program; the reduced number
  of required inliers is kept for later calls.
* `buildTracks` never merges two tracks that turn out to be connected, and a second interest point of an image replaces the
  first one in a track.
* `nelder_mead`: shrinking the whole simplex leaves the vertices unordered, so that the result need not be the best point
  evaluated; a seed without coordinates is undefined behaviour.
* `levenberg_marquardt`: with an error of 2^53 or more (or NaN) `x_try` is returned without having been assigned; the sixth
  trial of an iteration is dropped even if it is better.
* `conjugate_gradient` started where the gradient vanishes divides 0 by 0 at its second iteration, and a Fletcher-Reeves
  direction may go up, in which case `ArmijoStepSize` accepts an increase and `CharalambousStepSize` never ends (C88).
* `particle_swarm_optimization`: `if (double d = func(x[i]) < g_hat_val)` assigns the value of the comparison, 1, to `d`,
  which becomes the best value; the search is not confined to the box; a particle that is too fast gets speed 1 instead
  of `v_max` (C89).
* `NewtonRaphson::solve` returns the point after the last step without evaluating the function there; it may be worse
  than the guess (C90).
* `edge_mask` compares with strict inequalities, so with buffer 0 it also masks the first and last pixel of each row and
  column that do not have the mask value; `mean_channel_value` of a masked pixel skips the last channel; the safe quotient of
  masked pixels tests only whether all channels of the divisor are zero; `validate_mask` names a class that is never defined
  (C91).
* `DisparityRangeMaskFunc` compares rows with `m_min[0]`; `DisparityMaskView::prerasterize` trusts the search range given;
  `DisparityUpsampleView::prerasterize` does not halve the box; `RmOutliersUsingMeanFunc` does not advance the column when it
  skips a gross outlier; `RmOutliersUsingStdDev` allocates `(2v+1)^2` values for a window of `(2h+1)(2v+1)`;
  `StdDevImageFunc` sums `(w+1)(h+1)` pixels for even sizes and returns a variance (C93, C94).
* `are_nearly_parallel` does not see opposite directions and compares neighbours only; `StereoModel::operator()` reflects
  about the first camera whichever camera the point is behind (C95). The view matrix constructor of `CAHVModel` takes the
  centre from row 3; `epipolar` projects the axis, not the baseline, so rows agree only for baselines perpendicular to the
  mean axis (C96). `slerp_n` adds one to weights that start with two zeros; the quaternion of a reflection is that of some
  other matrix (C97).
* `PinholeModel::point_to_pixel` accepts points behind the camera because it also compares with the opposite direction;
  setters called with `rebuild = false` leave stale matrices; a setter that throws has already changed the camera;
  `scale_camera` and `strip_lens_distortion` pass the rotation through a quaternion (C98). `epipolar` ignores the frame
  vectors; `CAHVModel::toPinhole` normalises `A` of the camera it converts, after having used it, and assumes H and V to be
  perpendicular (C99).
* `rotation_matrix_to_euler_*` give the angles (0, right angle, 0) for every rotation in gimbal lock; the comment of
  `euler_to_rotation_matrix` speaks of new axes, the code uses fixed ones (C100). `AdjustedCameraModel::apply_transform`
  changes the rotation but not the stored inverse, which `point_to_pixel` uses (C101).
* `snellLaw` refuses a ray perpendicular to the water, so a camera looking straight down gets no correction (C102, C103).
  `set_bathy` switches the mode on before it checks its arguments, and compares planes but not water images (C103).
* `LagrangianInterpolation::operator()` is const but writes the member `m_times_temp`: calls from several threads disturb each
  other (C106). It and `HermitePositionInterpolation` refuse the last time (C105, C106). `TLCTimeInterpolation` with a table of
  decreasing lines gives wrong times, with a short table it reads through the end of a map (C107).
* `SlerpGridPointingInterpolation` uses the coordinate of the last column as an index (`low_icol = m_col_end - 1`) and scales
  the extrapolation by the whole width (C109). `QuatLagrangianInterpolationVarTime` does not align the signs of its
  quaternions (C108).
* `GeoReference`: with a rotation the half-pixel shift for area pixels, `crop` and `resample` use the diagonal only (C110); a
  `set_transform` that throws leaves the object with the new matrix and the old inverse (C110); `sample_int_box` gives no
  samples for sub-pixel boxes left of zero, the maximum corner is never sampled, `lonlat_to_pixel_bbox` does not wrap
  longitudes (C111); `set_wkt` places the box with the old `m_is_projected` (C112). `GeoTransform` decides its shortcut by one
  corner, and `reproject_point_image` gives points to a function of pixels (C113).
* `Datum::cartesian_to_geodetic` takes a power of a negative number near the centre and gives latitude and height zero there;
  one of its three branches for the longitude is never taken (C114).  `Datum::radius` takes a geocentric latitude,
  `geocentric_latitude` returns the radius for a sphere and radians otherwise, `geocentric_radius` scales the altitude at the
  poles by b^2/a^2 (C115).  `datum_intersection` also returns points behind the camera (C117).
* `DiskImageManager::get_handle` prefers a closed image that shows the box to an open one further down the list, then fails with
  "Expecting an open handle"; a failed call leaves the use count raised (C118).
* `TsaiLensDistortion::scale` and `PhotometrixLensDistortion::scale` multiply all parameters by the scale, which fits neither
  normalised coordinates (nothing should change) nor pixels (coefficients should shrink) (C121).
* `FovLensDistortion` accepts parameters above pi, for which the image is flipped, and undistorts pixels outside the image circle
  to arbitrary places without a report (C121).
* `RPCLensDistortion::read` drops the leading number of each denominator without checking that it is one, and accepts negative
  degrees (C120).
* `edgesIntersect` reports an intersection for collinear edges that are up to about 1e-12 of their length apart (C122).
* `findClosestPolyEdge` also searches the edge from the last to the first vertex of a polygonal line that is not closed (C125).
* `sortBySizeAndMaybeAddBigContainingRect` with `counter_cc = false` adds a rectangle that is itself a hole (C126).
* `writePoly` skips an empty polygon before it updates the offset: the polygons after it are written with wrong vertices; closed polygons are read back open (C128).
* `InterestPointMatcher::operator()` adds nothing to the index list for a point whose nearest neighbour the constraint rejects, so later points get the matches of others and the end of the list is read; likewise if the second list is empty (C130).
* `InterestPointMatcherSimple` ignores its constraint and matches one of two equal descriptors (C130).
* `ScaleOrientationConstraint` wraps by 2 pi, points from OpenCV have degrees (C129).
* `remove_ip_near_nodata` decrements `begin()` if the first point is removed; the test is `==`, the comment says `<=` (C131).
* `crop` of interest points with an integer box truncates towards zero (C131); `InterestPointLessThan` does not compare descriptors (C131).
* `CDFAccumulator` with fewer than about 30 quantiles starts with probabilities that are not in order; merging then reads outside of the samples (C132). `quantile` ignores samples not yet merged, and is 0 before the first merge (C132).
* `FillHoles` with smoothing passes gives values that depend on the tiles: the margin is enough to fill the pixels of the tile, not those the smoothing reads (C133). A mode other than 1 and 2 uses a distance kernel that was never allocated.
* `SphereBase::grow` of a point adds the new distance to the radius instead of replacing it: the result is larger than needed by the old radius. Growing to a sphere with the same center does nothing, and to a much larger sphere does not cover it (C134).
* `SphereBase::crop` to an empty sphere does nothing; when the sphere contains the other center it becomes the other sphere even if that is larger. `contract` below zero leaves a non-empty sphere without points; the converting constructor turns an empty sphere into a non-empty one with an uninitialized radius; `operator==` ignores emptiness (C135).
* `SparseCompositeView::absorb` does not check a strip for overlap if it ends to the right of all strips of the row; pixels of the new strip left of the existing strip are then lost without an error (C137).
* `InpaintTask` compares the end of the enlarged box (one after the last column) with `>=`: a blob with pixels in the last column or row but one is left unfilled, though one in the second column or row is filled (C140).
* Inpainting with grassfire starts from the values stored in the hole; after the fixed number of rounds they still contribute (C140).
* The parabola refinement of disparities accepts any point where the slopes of the fitted surface vanish, up to 5 pixels away: also saddle points and maxima (C141).
* `ImageComposite::prepare` moves the images by the corner of the mosaic at every call: a second call moves them out of place unless that corner is (0, 0) (C143).
* A source image of one column or one row gets an empty mask in `ImageComposite` (its grassfire distances are all 0), so it does not show in a blended mosaic (C144).
* `PositionedImage::reduce` repeats the last column and row beyond the image, so that a source has a part in pixels that its smoothed image does not reach; the list of sources made for a patch does not count with these, hence a blended pixel depends on the patch that was asked for (C146).
* With a subsample factor of 3 or more, `DiskImagePyramid` makes a level without columns (or rows) for a narrow image: the width 1 is rounded to 0 (C147).
* `DiskImagePyramid::get_image_clip` rounds both corners of the region down, so that the last columns and rows of the region may be missing from the clip, and a region smaller than the scale may give an empty clip (C148).
* `overwrite_if_no_good` compares times and sizes only: levels on disk made with other nodata values or valid ranges are used again (C147).
* `fill_costs_census5x5` stores the ternary codes, which have 48 bits, in `ImageView<uint32>`: the upper 16 bits, that is the upper row of the window and the pixels above and to the upper left of the centre, do not count in the costs (C151).
* The two versions of `otsu_threshold` do not give the same result when the best split is not unique (for example for an image of two values), although the comment says so; with one sample row or column the second one casts NaN to `int` (C153).
* For an image of one value `otsu_threshold` widens the range by 1, so the threshold is that value plus 1/2 in the first version and the value itself in the second one (C152, C153).
* `percentile_scale_convert` makes an image black in which both percentiles fall into one bin, such as one with 98 percent background (C154).
* `find_peaks` in scale space compares only the same pixel in the planes below and above (C156).
* `scale_to_plane_index` cuts the fraction, although it is said to give the closest plane (C156).
* `StdDevView` expands the copied region by half the width also vertically: windows higher than wide read outside of it (C157).
* `StdDevView` takes the oldest value out of its window for each invalid pixel, valid or not: NaN or wrong deviations near invalid pixels (C157).
* `StdDevView` and `WindowFunctionView` place windows of even width differently: the first to the right, the other to the left (C157).
* `median_filter_view` with a 1x1 window throws at an invalid pixel (C158).
* `catmull_rom::prime` forms `B1` with the two weights left from `A2`: it is the derivative only at the control points (C161).
* A closed `catmull_rom` curve at `max_parameter()` reads one element past the end of its knots and points (C161).
* An open `catmull_rom` curve whose first and last points coincide is refused (C161).
* `fit_peak` accepts a point in a flat neighbourhood with NaN as its position (C162).
* `fit_peak` in scale space returns false for a bad scale after moving the point (C162).
* `weighted_histogram` cuts instead of rounding down: values up to 1.5 bins below the range count in the first bin (C163).
* `orientation_interpolate`: the ratio is `(ori - bin_size) / bin_size`, right in a single bin, negative or above 1 elsewhere; an orientation of pi writes past the end (C163).
* `orientation_histogram` adds the central pixel again and again instead of the pixels of the region (C163).
* `filter_1d` with wrapping and a half width greater than the vector reads at a negative index (C163).
* `find_weighted_histogram_mode` compares with 0.8 times the number of the first bin instead of its value, and never clears the second mode, so it is reported four times (C163).
* `formBasis` gives NaN for every vector along an axis: the two components it uses are both 0 (C164).
* `computePlaneTangents` says its tangents are perpendicular to each other; they are not (C164).
* `round_and_clamp` to 64-bit integers converts 2^63 out of range for great values (C165).
* `inverse_bayer_filter` moves the image by one pixel left and up and averages the last two columns and rows with zeros (C168).
* `read_matrix_as_txt` cannot read an empty matrix, ends a row without an error at a value such as nan or inf, and throws on a blank line at the end (C169).
* `make_file_relative_to_dir` counts "." and ".." in the directory, and so a slash at its end, as directories to leave (C170).
* `prefix_from_filename` cuts at the dot of a directory if the name has none (C170).
* `get_files_with_prefix` looks inside of a directory that is named like the prefix, instead of beside it (C170).
* `two_threshold_fill` is documented as a flood fill; it makes only two passes and misses ways that turn back, and depends on the blocks (C171).
* `two_threshold_fill` tests `> 0` instead of equality with the value for true: a value for false other than 0 spreads too (C171).
* `Colormap` steps before the first entry of its map for values below the first key (C174).
* `populate_lut_map` divides by 0 if all keys are equal, and takes lines it skips into account as key 0 (C174).
* `parseColorStyle` drops the last line of a file that does not end with an end of line (C174).
* `RadialTransformAdaptor::forward` lacks the factor `m_half_width` in y.

## 5. Not modelled

Everything not cited by a definition. In particular: image file codecs and GDAL/OpenCV/PROJ wrappers,
floating-point rounding (except C62), camera models' numerical behaviour, bundle adjustment apart from the control network, interest point
detection and matching, mosaicking apart from the quad tree, GUI and tools, performance, memory allocation failure,
operating system scheduling and memory ordering. The default numeric inverse of `Transform`.
