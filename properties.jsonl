{"id": "C01", "title": "Cache bookkeeping tracks every live line exactly once", "statement": "After any history of insert, dereference (hit or miss, with eviction), release, deprioritize, resize and handle destruction on one Cache, every line that still has a handle is in exactly one of the two internal orders (loaded / not loaded), no destroyed line is in either, and the forward and backward links of both orders agree and are acyclic, so eviction scans always terminate and never touch freed memory.", "quantifier": "every finite sequence of cache operations, any number of lines, any sizes and any max_size", "why_tests_cant": "Pointer-list corruption depends on the position of the moved line (first/last/only/middle, valid/invalid) at every point of an unbounded history; tests exercise a handful of histories.", "anchors": ["src/vw/Core/Cache.h", "src/vw/Core/Cache.cc", "Cache::validate", "Cache::invalidate", "Cache::remove", "Cache::deprioritize", "Cache::allocate", "Cache::deallocate"]}
{"id": "C02", "title": "Cache size accounting is exact", "statement": "Whenever a thread is not inside a cache call, the number of bytes the cache believes it holds equals the sum of size() over the handles whose valid() is true.", "quantifier": "every sequential history of cache operations", "why_tests_cant": "An accounting leak accumulates over unbounded histories and shows only as premature eviction or a spurious 'Cache is empty but has nonzero size' error much later.", "anchors": ["src/vw/Core/Cache.h", "src/vw/Core/Cache.cc", "Cache::allocate", "Cache::deallocate", "CacheLine::value", "CacheLine::invalidate"]}
{"id": "C03", "title": "Cache memory bound", "statement": "When a dereference returns and no other handle is currently held, the bytes loaded do not exceed max(max_size, size of the dereferenced object); with held handles the excess is at most the bytes of the held lines plus the dereferenced one.", "quantifier": "every history, every combination of held handles, sizes and max_size", "why_tests_cant": "Depends on the whole eviction history and on which lines are pinned; a unit test fixes one pattern.", "anchors": ["src/vw/Core/Cache.h", "src/vw/Core/Cache.cc", "Cache::allocate"]}
{"id": "C04", "title": "A held object is never evicted", "statement": "From the moment a dereference returns until the matching release, the object stays loaded: no dereference of other handles and no resize by anybody unloads it.", "quantifier": "every history and every set of held handles", "why_tests_cant": "Needs all interleavings of holders and evictors.", "anchors": ["src/vw/Core/Cache.h", "src/vw/Core/Cache.cc", "CacheLine::value", "CacheLine::try_invalidate", "CacheLine::release"]}
{"id": "C05", "title": "Dereferencing a handle yields the generated object", "statement": "Every successful dereference of a handle returns an object produced by that handle's own generator, and the object is generated at most once between two evictions of the line (cache hits do not call the generator).", "quantifier": "every sequential history", "why_tests_cant": "Quantifies over all eviction/regeneration histories.", "anchors": ["src/vw/Core/Cache.h", "src/vw/Core/Cache.cc", "CacheLine::value", "Cache::Handle::operator->", "Cache::Handle::operator*"]}
{"id": "C06", "title": "Eviction order", "statement": "The documentation promises that when the cache is full the least recently used object is invalidated first.", "quantifier": "every history of dereferences", "why_tests_cant": "LRU is a statement about the order of all past accesses.", "anchors": ["src/vw/Core/Cache.h", "src/vw/Core/Cache.cc", "Cache::allocate", "CacheLine::value"]}
{"id": "C07", "title": "resize enforces the new limit", "statement": "When resize(n) returns, max_size() is n and at most n bytes are loaded; lines are unloaded from the cold end of the eviction order and no more lines than needed.", "quantifier": "every cache state with no held handle, every n", "why_tests_cant": "Ranges over all states and sizes.", "anchors": ["src/vw/Core/Cache.h", "src/vw/Core/Cache.cc", "Cache::resize"]}
{"id": "C08", "title": "Concurrent misses keep the accounting exact", "statement": "When several threads dereference the same unloaded handle at the same time, the object is generated once and its bytes are charged once.", "quantifier": "every interleaving of threads dereferencing one line", "why_tests_cant": "A race: only particular schedules between the shared unlock and the upgrade lock exhibit it.", "anchors": ["src/vw/Core/Cache.h", "src/vw/Core/Cache.cc", "CacheLine::value"]}
{"id": "C09", "title": "Handle lock discipline", "statement": "A client that dereferences a handle any number of times, then releases it once or destroys it, leaves the line evictable and destructible.", "quantifier": "every sequence of dereference / release / copy / reset / destroy on the handles of one line", "why_tests_cant": "The leaked lock only shows as a hang in a later operation.", "anchors": ["src/vw/Core/Cache.h", "src/vw/Core/Cache.cc", "Cache::Handle", "CacheLine::release", "CacheLine::~CacheLine"]}
{"id": "C10", "title": "Thread pool concurrency limit", "statement": "At no time are more tasks of a WorkQueue running than max_threads(), active_threads() never exceeds max_threads(), and two simultaneously live workers never share a thread slot.", "quantifier": "every schedule of add_task calls and worker steps", "why_tests_cant": "All interleavings.", "anchors": ["src/vw/Core/ThreadPool.h", "src/vw/Core/ThreadPool.cc", "WorkQueue::notify", "WorkQueue::worker_thread_complete"]}
{"id": "C11", "title": "Thread pool runs every task exactly once", "statement": "Each task given to a FifoWorkQueue is started at most once, and at every moment every added task is exactly one of: queued, being run, finished. No task is lost or duplicated.", "quantifier": "every schedule without kill_and_join", "why_tests_cant": "All interleavings of notify and worker completion.", "anchors": ["src/vw/Core/ThreadPool.h", "src/vw/Core/ThreadPool.cc", "FifoWorkQueue::add_task", "FifoWorkQueue::get_next_task", "WorkQueue::WorkerThread::operator()"]}
{"id": "C12", "title": "FIFO start order", "statement": "Tasks of a FifoWorkQueue are started in the order in which they were enqueued.", "quantifier": "every schedule", "why_tests_cant": "All interleavings.", "anchors": ["src/vw/Core/ThreadPool.h", "src/vw/Core/ThreadPool.cc", "FifoWorkQueue::get_next_task"]}
{"id": "C13", "title": "join_all waits for all work", "statement": "If join_all() returns and no add_task call is in progress, then every task added so far has finished and active_threads() is 0; while a task is still queued or running join_all() does not return.", "quantifier": "every schedule without kill_and_join, max_threads \u2265 1", "why_tests_cant": "All interleavings; a lost wake-up or lost task shows only under rare schedules.", "anchors": ["src/vw/Core/ThreadPool.h", "src/vw/Core/ThreadPool.cc", "WorkQueue::join_all"]}
{"id": "C14", "title": "kill_and_join terminates", "statement": "kill_and_join() returns once the tasks that are running at the time of the call have finished, without waiting for queued tasks.", "quantifier": "every schedule, any number of queued tasks", "why_tests_cant": "The hang needs a worker to fetch a task after the kill flag is set.", "anchors": ["src/vw/Core/ThreadPool.h", "src/vw/Core/ThreadPool.cc", "WorkQueue::kill_and_join", "WorkQueue::WorkerThread::operator()"]}
{"id": "C15", "title": "OrderedWorkQueue runs tasks in index order", "statement": "An OrderedWorkQueue starts the task with index 0 first, then 1, 2, ... with no gaps, regardless of the order in which tasks are added; a task whose predecessors are missing is never started.", "quantifier": "every order of add_task(task,index) calls and every schedule", "why_tests_cant": "All permutations and schedules.", "anchors": ["src/vw/Core/ThreadPool.h", "src/vw/Core/ThreadPool.cc", "OrderedWorkQueue::add_task", "OrderedWorkQueue::get_next_task"]}
{"id": "C16", "title": "ThreadQueue is a linearizable FIFO", "statement": "With any number of producers and consumers, the values popped (by try_pop, wait_pop and successful timed_wait_pop) are, in order, a prefix of the values pushed since the last flush; nothing is popped twice or invented; a blocked wait_pop is woken when data is available.", "quantifier": "every interleaving of push, try_pop, wait_pop, timed_wait_pop, flush", "why_tests_cant": "All interleavings, including notify-after-unlock.", "anchors": ["src/vw/Core/ThreadQueue.h", "ThreadQueue"]}
{"id": "C17", "title": "Log rules: latest matching rule decides", "statement": "A message is logged by a LogRuleSet iff the most recently added rule whose namespace pattern matches admits its level; when no rule matches, the defaults apply (info for console and *.progress, warnings for everything).", "quantifier": "every sequence of add_rule/clear calls, every level and namespace", "why_tests_cant": "All rule lists and all strings.", "anchors": ["src/vw/Core/Log.cc", "LogRuleSet::add_rule", "LogRuleSet::operator()"]}
{"id": "C18", "title": "Log wildcard semantics", "statement": "For a pattern accepted by add_rule: '*' matches everything; '*s' matches exactly the namespaces ending in s; 'a.*' matches exactly a and the namespaces starting with 'a.'; a pattern without wildcard matches only itself, case-insensitively.", "quantifier": "every accepted pattern and every namespace string", "why_tests_cant": "All strings.", "anchors": ["src/vw/Core/Log.cc", "wildcard_match", "LogRuleSet::add_rule"]}
{"id": "C19", "title": "Box crop is set intersection", "statement": "After a.crop(b), a point is contained in a iff it was contained in both; a.intersects(b) holds iff the boxes (when both non-empty) share a region, i.e. iff the cropped box is non-empty.", "quantifier": "all boxes of any dimension over any linearly ordered coordinate type, all points", "why_tests_cant": "All coordinates, including degenerate and inverted boxes.", "anchors": ["src/vw/Math/BBox.h", "src/vw/Math/BBox.tcc", "BBox::crop", "BBox::intersects", "BBox::contains"]}
{"id": "C20", "title": "Box grow is the least enclosing box", "statement": "Growing an empty default box by a non-empty collection of points, in any order, gives the smallest closed box containing all of them; the result does not depend on order or repetition. Growing by a box encloses it.", "quantifier": "all finite point collections with coordinates in the documented range, all orders", "why_tests_cant": "All permutations and coordinates.", "anchors": ["src/vw/Math/BBox.h", "src/vw/Math/BBox.tcc", "BBox::grow", "BBox::BBox()"]}
{"id": "C21", "title": "Default box is empty and neutral", "statement": "A default-constructed box of every provided coordinate type is empty, contains no point and is the neutral element of grow.", "quantifier": "all provided coordinate types (int32, uint32, float32, float64) and all points in range", "why_tests_cant": "The property quantifies over types and points; the failing type is never tested.", "anchors": ["src/vw/Math/BBox.h", "src/vw/Math/BBox.tcc", "BBox::BBox()", "BBox::empty"]}
{"id": "C22", "title": "Box algebra: translate, expand, contract, scale", "statement": "Translating, expanding/contracting and scaling a non-empty box act on it as on the point set (p in B+v iff p-v in B; contract undoes expand; scaling by s>0 scales membership), keep width/height consistent, and leave empty boxes unchanged.", "quantifier": "all boxes, vectors, offsets and scales", "why_tests_cant": "All coordinates.", "anchors": ["src/vw/Math/BBox.h", "src/vw/Math/BBox.tcc", "BBox::operator+=", "BBox::expand", "BBox::contract", "BBox::operator*="]}
{"id": "C23", "title": "grow_bbox_to_int encloses", "statement": "For a real box with min <= max in every dimension, grow_bbox_to_int returns an integer box whose half-open extent contains the whole closed real box and which is at most one unit larger on each side; a fully empty box maps to the default empty box.", "quantifier": "all real boxes in int32 range", "why_tests_cant": "All real coordinates, especially integral ones.", "anchors": ["src/vw/Math/BBox.h", "src/vw/Math/BBox.tcc", "grow_bbox_to_int"]}
{"id": "C24", "title": "Block processor visits every pixel exactly once", "statement": "For any bounding box, block size and number of threads, and any schedule, the boxes passed to the functor are pairwise disjoint, lie inside the requested box and cover it exactly; the call terminates.", "quantifier": "all boxes (negative origins included), all positive block sizes, all thread counts and schedules", "why_tests_cant": "All sizes and interleavings.", "anchors": ["src/vw/Image/BlockProcessor.h", "BlockProcessor::operator()", "BlockThread::Info::advance", "BlockThread::Info::round_down"]}
{"id": "C25", "title": "Each processed block stays inside one grid cell", "statement": "Every box given to the functor lies within a single cell of the block grid anchored at the origin, so that for an image the block index computed from its corner is the right cache block and is in range.", "quantifier": "all boxes within an image, all positive block sizes", "why_tests_cant": "All sizes.", "anchors": ["src/vw/Image/BlockProcessor.h", "BlockGeneratorManager::get_block_index", "BlockGeneratorManager::initialize"]}
{"id": "C26", "title": "Block rasterization is transparent", "statement": "Rasterizing or reading pixels through block_rasterize / block_cache gives exactly the pixels of the child image, for every sub-box, block size, thread count, cache size and history of previous accesses.", "quantifier": "all images, sub-boxes, block sizes, schedules and cache histories", "why_tests_cant": "All histories of evictions and block layouts.", "anchors": ["src/vw/Image/BlockRasterize.h", "BlockRasterizeView::operator()", "BlockRasterizeView::rasterize", "BlockRasterizeView::RasterizeFunctor", "src/vw/Image/BlockProcessor.h"]}
{"id": "C27", "title": "Edge extension agrees with the image inside and never reads outside", "statement": "For every edge extension mode, an edge-extended image equals the original inside its bounds and, for every coordinate pair outside, is computed only from pixels inside the bounds, following the documented rule (zero, constant value, nearest pixel, periodic, cylindrical, reflect, linear).", "quantifier": "all image sizes, all integer coordinates", "why_tests_cant": "All coordinates, arbitrarily far outside.", "anchors": ["src/vw/Image/EdgeExtension.h", "src/vw/Image/EdgeExtension.tcc", "ZeroEdgeExtension", "ConstantEdgeExtension", "PeriodicEdgeExtension", "CylindricalEdgeExtension", "ReflectEdgeExtension", "LinearEdgeExtension"]}
{"id": "C28", "title": "Edge extension source box is sufficient", "statement": "For every requested box, the region of the source image that an edge-extended view asks its child to prepare lies inside the image and contains every source pixel needed to compute the requested pixels.", "quantifier": "all image sizes, all requested non-empty boxes, each mode", "why_tests_cant": "All box positions relative to the period.", "anchors": ["src/vw/Image/EdgeExtension.h", "src/vw/Image/EdgeExtension.tcc", "source_bbox"]}
{"id": "C29", "title": "Disjoint sets implement the generated equivalence", "statement": "After any sequence of insert, combine and find calls, find(a)=find(b) iff a and b are related by the equivalence generated by the combines; find returns a set representative, is idempotent and changes no answer; invalid arguments are rejected.", "quantifier": "all operation sequences", "why_tests_cant": "Path compression and union by rank change the forest in history-dependent ways.", "anchors": ["src/vw/Math/DisjointSet.h", "DisjointSet"]}
{"id": "C30", "title": "Minimum spanning tree is a minimum spanning forest", "statement": "The edges selected by MinimumSpanningTree are acyclic, connect exactly the node pairs that are connected in the input graph, and their total cost is minimal among all such edge subsets.", "quantifier": "all edge lists with arbitrary node numbers and costs", "why_tests_cant": "All graphs.", "anchors": ["src/vw/Math/MinimumSpanningTree.cc", "MinimumSpanningTree::MinimumSpanningTree"]}
{"id": "C31", "title": "Bresenham line tracing", "statement": "Tracing a line visits exactly max(|dx|,|dy|) pixels starting at an endpoint, consecutive pixels are 8-neighbours advancing one step along the major axis, and every pixel is within half a pixel (in the minor axis) of the ideal line.", "quantifier": "all integer endpoint pairs", "why_tests_cant": "All slopes and lengths.", "anchors": ["src/vw/Math/BresenhamLine.h", "BresenhamLine"]}
{"id": "C32", "title": "Integral image block sums", "statement": "IntegralBlock over the integral image of an image equals the sum of the pixels in the half-open block, for every block inside the image.", "quantifier": "all images and all blocks (exact arithmetic)", "why_tests_cant": "All sizes.", "anchors": ["src/vw/InterestPoint/IntegralImage.h", "src/vw/InterestPoint/IntegralImage.cc", "IntegralImage", "IntegralBlock"]}
{"id": "C33", "title": "UTM zone", "statement": "For every latitude in [-80,84] and every finite longitude, getUTMZone returns a zone in 1..60, is invariant under adding 360 degrees, and follows the standard table including the Norway and Svalbard exceptions.", "quantifier": "all latitudes and longitudes", "why_tests_cant": "Continuum of inputs; boundary values.", "anchors": ["src/vw/Cartography/Utm.cc", "getUTMZone", "getLongitudeZone", "getLatitudeBand"]}
{"id": "C34", "title": "Quadtree tiles partition the region", "statement": "The regions produced by recursively branching the quadtree root are pairwise disjoint at each level, cover the parent exactly, all leaves have the tile size, the number of levels is finite and the root covers the whole image; distinct tiles get distinct names and paths.", "quantifier": "all tile sizes and image dimensions, all depths", "why_tests_cant": "All sizes and depths.", "anchors": ["src/vw/Mosaic/QuadTreeGenerator.cc", "src/vw/Mosaic/QuadTreeGenerator.h", "default_branch_func", "get_tree_levels"]}
{"id": "C35", "title": "VarArray behaves like a vector", "statement": "resize with preserve keeps the common prefix and zero-fills the rest, without preserve zero-fills everything, copies are independent, and size() is always the requested size.", "quantifier": "all arrays and all operation sequences", "why_tests_cant": "All sizes.", "anchors": ["src/vw/Core/VarArray.h", "VarArray"]}
{"id": "C36", "title": "string_replace replaces all occurrences", "statement": "string_replace(s, find, replace) terminates, and replaces every (leftmost non-overlapping) occurrence of find, returning their number.", "quantifier": "all strings s, find, replace", "why_tests_cant": "All strings, in particular adjacent occurrences and replacements containing the pattern.", "anchors": ["src/vw/Core/StringUtils.cc", "string_replace"]}
{"id": "C37", "title": "Median and outlier brackets", "statement": "median returns a value with at least half of the inputs on each side, independent of input order; find_outlier_brackets brackets are ordered and contain the central values.", "quantifier": "all non-empty inputs", "why_tests_cant": "All inputs and permutations.", "anchors": ["src/vw/Math/Statistics.h", "median", "find_outlier_brackets"]}
{"id": "C38", "title": "Integer helper functions", "statement": "mod(a,b) is the mathematical modulus in [0,b) (or (b,0]); nextpow2(x) is the smallest power of two >= max(x,1); hamming_distance counts the differing bits and is a metric; the inlined round and floor agree with their mathematical meaning.", "quantifier": "all arguments in range", "why_tests_cant": "All bit patterns.", "anchors": ["src/vw/Math/Functions.h", "mod", "nextpow2", "hamming_distance", "_round", "_floor"]}
{"id": "C39", "title": "Progress reporting", "statement": "Reports made to nested sub-progress monitors over a partition of [0,1] move the parent's progress monotonically within the sub-range, and an abort requested anywhere in the chain is seen by every monitor of the chain.", "quantifier": "all nesting depths and report sequences", "why_tests_cant": "All nestings.", "anchors": ["src/vw/Core/ProgressCallback.h", "SubProgressCallback"]}
{"id": "C40", "title": "Generator exceptions leave the cache usable", "statement": "If a generator throws while a handle is dereferenced, the exception propagates and the cache is left as if the dereference had not happened: no bytes stay charged for the object and the line can later be regenerated, evicted and destroyed.", "quantifier": "all histories and all points at which a generator may throw", "why_tests_cant": "The exception can hit any state of the cache, with any mix of other lines.", "anchors": ["src/vw/Core/Cache.h", "Cache::CacheLine::value", "src/vw/Core/Cache.cc", "Cache::allocate"]}
{"id": "C41", "title": "Deprioritize is safe against concurrent eviction", "statement": "Calling deprioritize on a handle while another thread causes evictions always terminates and leaves both internal lists intact.", "quantifier": "all interleavings of a deprioritize with evictions by other threads", "why_tests_cant": "Needs a schedule in which the line is evicted between two critical sections.", "anchors": ["src/vw/Core/Cache.h", "Cache::CacheLine::deprioritize", "src/vw/Core/Cache.cc", "Cache::deprioritize"]}
{"id": "C42", "title": "Destroying a work queue is safe", "statement": "Destroying a work queue waits for its running and queued tasks; no worker touches the queue object after its members are destroyed.", "quantifier": "every schedule, any number of outstanding tasks", "why_tests_cant": "Needs a worker to fetch its next task after the derived class' destructor has run.", "anchors": ["src/vw/Core/ThreadPool.h", "src/vw/Core/ThreadPool.cc", "WorkQueue::~WorkQueue", "FifoWorkQueue"]}
{"id": "C43", "title": "Log lines of different threads are not mixed", "statement": "Text written by several threads to one log appears line by line: each thread's text appears in the order written, nothing is lost or duplicated, a line completed by its thread is output at once, and no line contains text of two threads (unless a thread flushes in mid-line).", "quantifier": "every interleaving of writes by any number of threads", "why_tests_cant": "All interleavings of character and string writes.", "anchors": ["src/vw/Core/Log.cc", "PerThreadBufferedStreamBuf", "overflow", "xsputn", "sync"]}
{"id": "C44", "title": "Spanning tree traversal", "statement": "MinimumSpanningTree::apply calls the functor exactly once for every selected edge, starting at the start node (if it is a node of the graph) and then the other components; each edge is reported with the end that is already connected to the root of its component, before any edge beyond it.", "quantifier": "all graphs with arbitrary node numbers, all start nodes", "why_tests_cant": "All shapes and depths of the forest.", "anchors": ["src/vw/Math/MinimumSpanningTree.cc", "MinimumSpanningTree::apply", "MinimumSpanningTree::apply_"]}
{"id": "C45", "title": "Box filters on integral images", "statement": "XSecondDerivative, YSecondDerivative and XYDerivative on an integral image equal the weighted pixel sums of their box filters divided by the squared filter size, the Haar wavelets equal the difference of the two halves of a square within one pixel of the requested one; on a constant image the second derivative vanishes exactly when the lobe is odd.", "quantifier": "all images, positions and filter sizes that fit inside the image (exact arithmetic)", "why_tests_cant": "All sizes and contents.", "anchors": ["src/vw/InterestPoint/IntegralImage.h", "src/vw/InterestPoint/IntegralImage.cc", "XSecondDerivative", "YSecondDerivative", "XYDerivative", "HHaarWavelet", "VHaarWavelet"]}
{"id": "C46", "title": "Convolution views", "statement": "A convolution view, general or separable, shows at every position the convolution of the edge-extended image with its kernel and origin, and shows the same value whether the pixel is read directly (interior or edge path) or the view is rasterized over any block containing it; no read falls outside the image or the intermediate buffers.", "quantifier": "all images, kernels, kernel origins, edge extension modes, blocks and positions (exact arithmetic)", "why_tests_cant": "All sizes, kernels and block positions.", "anchors": ["src/vw/Image/Convolution.h", "ConvolutionView", "SeparableConvolutionView"]}
{"id": "C48", "title": "Subdividing a bounding box", "statement": "Subdividing an object's bounding box into blocks yields boxes that are non-empty, inside the object and at most block-sized, and every pixel of the object lies in exactly one of them; with partial boxes excluded the result is exactly the full grid cells inside the object; with full-size requested every box has exactly the block size, every pixel is covered, and a box stays inside the object in each dimension in which the object is at least one block; the combination full-size without partials is rejected.", "quantifier": "all boxes (also empty), positive block sizes, flags", "why_tests_cant": "All sizes and alignments.", "anchors": ["src/vw/Image/AlgorithmFunctions.cc", "subdivide_bbox"]}
{"id": "C47", "title": "Lazy view expressions", "statement": "For every expression built from memory and disk images, crop, transpose, rotations, flip, subsample, per-pixel functors and edge extension, rasterizing any box inside the result gives at every place exactly the pixel a direct read of the expression gives; pixel accessors moved along any path show the same pixel; no read leaves an image; the rotations and flips obey the expected laws.", "quantifier": "all view expressions of any depth, all sizes, offsets, factors, edge modes, boxes and positions", "why_tests_cant": "Unbounded nesting depth and all sizes; tests cover a handful of compositions.", "anchors": ["src/vw/Image/ImageTransform.h", "src/vw/Image/Manipulation.h", "src/vw/Image/PerPixelViews.h", "src/vw/Image/EdgeExtension.h", "src/vw/Image/PixelAccessors.h", "src/vw/Image/ImageViewBase.h", "rasterize", "SubsampleView::prerasterize"]}
{"id": "C49", "title": "Histograms and running statistics", "statement": "A histogram counts every value it accepts in exactly one bin, its total is the number of values counted (all of them when saturating), a value of the range goes to a bin whose center is within one bin width, and a percentile is the first bin up to which that fraction of the values lies; the accumulators give the least, greatest, mean and mean squared deviation of exactly the values seen, and the sliding one of exactly the last n.", "quantifier": "every sequence of values, number of bins, range, window size and fraction", "why_tests_cant": "the properties are over all sequences of values and window positions; the running update is only right if it is right after every history", "anchors": ["src/vw/Math/Statistics.cc: Histogram", "src/vw/Math/Functors.h: MinMaxAccumulator, MeanAccumulator, StdDevAccumulator, StdDevSlidingFunctor", "src/vw/Image/Statistics.h: EWMinMaxAccumulator, EWStdDevAccumulator"]}
{"id": "C50", "title": "Grassfire distance", "statement": "The grassfire image holds at every pixel exactly the Manhattan distance to the nearest zero pixel, the outside of the image counting as zero unless borders are ignored; with borders ignored and no zero pixel every value is rows plus columns.", "quantifier": "every image of any size, every pixel", "why_tests_cant": "two passes of local updates must give the global minimum over all zeros; a test shows some images only", "anchors": ["src/vw/Image/Grassfire.h: grassfire"]}
{"id": "C51", "title": "Stopwatch", "statement": "For any interleaving of nested and overlapping starts and stops by any threads, a stopwatch is running exactly while a start is open, and its elapsed time is exactly the time during which at least one start was open.", "quantifier": "every balanced history of calls and clock readings", "why_tests_cant": "all interleavings of nested calls", "anchors": ["src/vw/Core/Stopwatch.h: Stopwatch"]}
{"id": "C52", "title": "Blob labelling finds exactly the 8-connected components", "statement": "For every masked image with at least one pixel, building a BlobIndex ends without exception; its blobs are exactly the 8-connected components of the valid pixels: every blob decompresses to at least one pixel, row by row and without repetition, the pixels listed are all the valid pixels, and two pixels are in the same blob iff one can go from one to the other through valid pixels by steps to one of the 8 neighbours. size() is the number of pixels, bounding_box() the smallest box with them, intersects(box) is true iff in a row of the box the blob reaches from left of its right side to right of its left side. The label image is non-zero exactly at the valid pixels; equal labels are in one blob.", "quantifier": "all image sizes >= 1x1 and all masks", "why_tests_cant": "The components can wind arbitrarily (spirals, combs), so that any number of provisional labels is merged through a graph; no finite set of masks covers all merge orders.", "anchors": ["src/vw/Image/BlobIndex.h: blob::BlobIndex, blob_index", "src/vw/Image/BlobIndex.cc: BlobCompressed::add_row, shift_x, size, bounding_box, intersects, decompress"]}
{"id": "C53", "title": "Threaded blob index: same components whatever the tiling and schedule", "statement": "For every image, tile size, order in which tiles are finished, number of consolidation jobs and order in which they finish, BlobIndexThreaded ends without an exception and its blobs are exactly the 8-connected components of the valid pixels (those with at most max_area pixels when max_area > 0), each listed once, also when they cross tile borders; the stored bounding boxes are those of the blobs; wipe_big_blobs keeps exactly the blobs whose bounding box fits.", "quantifier": "all images, tile sizes, size limits, task schedules", "why_tests_cant": "A test runs one schedule on a few images; tile borders multiply the cases of touching runs, and the result must not depend on which thread appends first.", "anchors": ["src/vw/Image/BlobIndex.h: BlobIndexThreaded, BlobIndexTask, wipe_big_blobs", "src/vw/Image/BlobIndex.cc: absorb, is_on_right, is_on_bottom, refactor, consolidate, ConsolidateAbsorbTask"]}
{"id": "C54", "title": "Settings: which value a setting has, and that the system cache follows it", "statement": "After a settings call set_X(v) every later X() returns v until set_X is called again, whatever the vwrc file holds or becomes; with the vwrc file disabled (empty name) values come from calls alone; after a vwrc file is read, every setting named in it has the value of its last line naming it, other settings keep theirs, and an edit of the file is picked up by later getters; the system cache always has the size system_cache_size() reports; the file is not stat-ed more often than the polling period.", "quantifier": "all sequential histories of calls on the settings object, all vwrc contents, edit times and clocks", "why_tests_cant": "Order of first use, file modification times, polling windows and re-entrant calls from the parser combine into histories no test enumerates.", "anchors": ["src/vw/Core/Settings.cc: Settings, reload_config, set_rc_filename, getters and setters", "src/vw/Core/ConfigParser.cc: parse_config", "src/vw/Core/System.cc: vw_system_cache"]}
{"id": "C55", "title": "Chipper: a cloud is shared out among blocks, no point lost or repeated", "statement": "For every point cloud, block size b > 0 and image whose sides are multiples of b with at least as many cells as points, constructing a Chipper ends without an exception; every point is stored in exactly one cell of the image and all other cells are zero; the points are in ceil(N/b^2) blocks of b x b cells, filled one after the other, whose sizes differ by at most one, and any two blocks hold points that are separated along the x or the y axis. Clouds that do not fit are refused.", "quantifier": "all clouds (also with equal coordinates), block sizes, image sizes", "why_tests_cant": "The algorithm keeps two sorted arrays cross-linked while swapping them with a spare array through a recursion; a lost or repeated point only shows for particular coincidences of coordinates and counts.", "anchors": ["src/vw/Cartography/Chipper.cc: Chipper, load, partition, decideSplit, split, finalSplit, emit", "src/vw/Cartography/Chipper.h: ChipPtRef, ChipRefList"]}
{"id": "C56", "title": "Sparse skyline matrices: decomposition and solution of linear systems", "statement": "For every symmetric positive definite matrix and every skyline that fits it, sparse_solve returns the one solution of A x = b, multi_sparse_solve solves every column, and sparse_ldl_decomposition leaves L and D with A = L D L^T; solving a system reordered by any permutation and reordering the result back solves the first system; the skyline a matrix keeps fits it after any sequence of element accesses; solve_for_skyline finds the tightest one.", "quantifier": "all sizes, matrices, skylines, permutations and histories of element accesses (exact arithmetic)", "why_tests_cant": "In-place elimination skips the elements left of the skyline in four loops, with an extra inverse skyline in the back substitution; a wrong bound only shows for particular sparsity patterns.", "anchors": ["src/vw/Math/MatrixSparseSkyline.h: MatrixSparseSkyline, sparse_ldl_decomposition, sparse_solve, multi_sparse_solve, sparse_solve_ldl, reorganize, solve_for_skyline"]}
{"id": "C57", "title": "Interest point and match files: what is written is what is read, and files cut short are refused", "statement": "Every list of interest points written to a .vwip file, and every two lists of equal length written to a .match file, are read back bit for bit, descriptors included; lists of different length are refused; a file cut short (the writer stopped at any byte) is refused when it is read.", "quantifier": "all lists of interest points with any field values and descriptor lengths, every byte at which the writer can stop", "why_tests_cant": "The crash points and contents are unbounded; the reader tests the stream only at the start of a record, which matters only for particular cuts.", "anchors": ["src/vw/InterestPoint/MatcherIO.cc: write_ip_record, read_ip_record, write_binary_ip_file, read_binary_ip_file, write_binary_match_file, read_binary_match_file"]}
{"id": "C58", "title": "Names of interest point and match files: length, directory, and different images giving different files", "statement": "Whatever the output prefix and the image names, match_filename, ip_filename and shorten_vwip_name give a file in the directory of the prefix whose last component has at most 240 characters (246 for the clean match file); names that fit are used unchanged; an image called prefix-NAME.ext goes by NAME; different pairs of images get different match files and different images different interest point files.", "quantifier": "all prefixes, paths and image names of any length", "why_tests_cant": "Length limits, nested hashing and the cut at the prefix interact for unbounded strings; collisions only happen for particular names.", "anchors": ["src/vw/InterestPoint/MatcherIO.cc: match_filename, ip_filename, shorten_vwip_name, clean_match_filename, strip_path, shortenName, capPrefixBase, fnv1a64Hex"]}
{"id": "C59", "title": "Block matching returns the best disparity in the search range", "statement": "For every pixel, calc_disparity returns a disparity inside the search range whose score over the kernel window (sum of absolute differences, sum of squared differences, or normalized cross correlation) no other disparity in the range beats, the first such one in row-major order; it is invalid exactly if all disparities in the range score the same; kernels with an even side are refused; if the window occurs in the right image within the range, an occurrence is found.", "quantifier": "all images, regions, odd kernel sizes, search ranges, cost functions and pixels (exact arithmetic)", "why_tests_cant": "The box sums are updated incrementally along rows and columns and best and worst scores in one pass; errors only show for particular sizes and images.", "anchors": ["src/vw/Stereo/Correlation.cc: calc_disparity, best_of_search_convolution", "src/vw/Stereo/Algorithms.h: fast_box_sum", "src/vw/Stereo/CostFunctions.h: AbsoluteCost, SquaredCost, NCCCost"]}
{"id": "C60", "title": "subdivide_regions lists disjoint search regions that cover every disparity", "statement": "Called for a region inside the image, subdivide_regions returns true and appends regions that lie in that region and do not overlap; every pixel of it with a valid disparity is in one of them, and the disparity range listed with that region has its disparity; the sides of each listed range are disparities of pixels in or next to the region (so it is not larger than needed), or the range is the empty default box.", "quantifier": "all disparity images (with any masked pixels), all regions inside the image, every outcome of the comparison of the work estimates", "why_tests_cant": "The recursion retries a failed split one level down, and merges quadrants that failed in pairs; which case occurs depends on the disparities and sizes at every level.", "anchors": ["src/vw/Stereo/Correlation.cc: subdivide_regions", "src/vw/Image/Statistics.h: EWMinMaxAccumulator", "src/vw/Math/BBox.tcc: grow, expand, crop"]}
{"id": "C61", "title": "Converting image buffers puts every channel in its place and touches nothing else", "statement": "convert(dst, src) between buffers of the same size copies each channel when the formats agree, whatever the strides; between gray, gray with alpha, RGB, RGBA and XYZ it converts channel by channel, repeats gray, averages colours, copies alpha and sets a new alpha to the greatest value; it applies and removes premultiplied alpha as the two formats ask for; it turns planes into channels and back; ImageBuffer::write followed by ImageBuffer::read of the same box gets the same pixels and leaves the rest of the buffer as it was; it throws exactly when can_convert does.", "quantifier": "all sizes, strides and origins of the two buffers, all pixel formats and channel types, all contents", "why_tests_cant": "There are 30 pixel formats, 15 channel types, two alpha modes for each side and any strides; the interplay of the flags that decide about alpha is only visible for particular pairs.", "anchors": ["src/vw/Image/ImageResource.cc: convert, can_convert", "src/vw/Image/ImageResource.h: ImageBuffer", "src/vw/Image/PixelTypeInfo.cc: num_channels, channel_size"]}
{"id": "C62", "title": "Rescaled and premultiplied channels stay what they were", "statement": "A channel rescaled to a wider type and back is unchanged; multiplying alpha in rounds the product to nearest, leaves opaque pixels alone, makes transparent ones 0 and never exceeds the channel; dividing alpha out gets back the value as far as the product determines it.", "quantifier": "all values of all integer channel types up to 32 bits, all alphas, with the rounding of float and double", "why_tests_cant": "The number of pairs of values is out of reach for 16 and 32 bits, and the rounding of binary fractions decides.", "anchors": ["src/vw/Image/ImageResource.cc: channel_convert_uint8_to_uint16, channel_convert_uint16_to_uint8, channel_convert_int_to_float, channel_convert_float_to_int, channel_premultiply_int, channel_unpremultiply_int"]}
{"id": "C63", "title": "Semi-global matching: the cost along a path is the least energy of the disparities along it", "statement": "Along each scanline direction the path cost that SemiGlobalMatcher computes for a pixel and a disparity is, up to one constant for the pixel, the least energy of all ways to give the pixels of the line up to it disparities of their search ranges: matching costs, plus p1 for each change by one (in columns, rows or both) and the (gradient-reduced) p2 for each larger change. A pixel without disparities starts the path anew. The SSE and the plain version agree; nothing overflows.", "quantifier": "all images, costs, search ranges of the pixels, penalties in range, directions, lines and positions", "why_tests_cant": "The number of disparity sequences is exponential in the length of the line; tests compare against a stored image.", "anchors": ["src/vw/Stereo/SGM.cc: SemiGlobalMatcher::evaluate_path, populate_adjacent_disp_lookup_table, set_parameters", "src/vw/Stereo/SGMAssist.h: PixelPassTask"]}
{"id": "C64", "title": "Semi-global matching: threads never touch the same pixel and the accumulated cost is the sum over the eight directions", "statement": "In each of the eight directions the lines that are handed to the threads cover every pixel of the image exactly once, so tasks running at the same time write to different pixels, and no line leaves the image. In whatever order the tasks do their additions, the accumulated cost of a pixel and disparity is the sum of its eight path costs; it does not overflow for p2 up to 7936, which includes all defaults. The vectors of the pixels in the shared buffers are disjoint and inside, and a line always fits its line buffer.", "quantifier": "all image sizes, directions, search ranges, schedules of the tasks", "why_tests_cant": "A doubled or missed corner line shows only as a slightly different cost; races depend on the schedule.", "anchors": ["src/vw/Stereo/SGM.cc: accum_sgm_multithread, calc_main_buf_size", "src/vw/Stereo/SGMAssist.h: PixelPassTask::update_accum_buffer, OneLineBuffer::one_buf_size", "src/vw/Image/PixelIterator.h: PixelLineIterator"]}
{"id": "C65", "title": "Semi-global matching: a pixel gets the best disparity of its search range", "statement": "A pixel with an empty search range (masked) is invalid, any other gets a disparity of its search range with the least accumulated cost. Search ranges derived from the level below lie inside the search range of the image, contain everything within the search buffer of twice the earlier disparity and are restricted to the valid part of the right image.", "quantifier": "all search ranges and accumulated costs, all earlier disparities, masks", "why_tests_cant": "Indices into rectangles of any position and size; ties and wide ranges are rare in test images.", "anchors": ["src/vw/Stereo/SGM.cc: select_best_disparity, create_disparity_view, disp_index_to_xy, populate_constant_disp_bound_image, populate_disp_bound_image"]}
{"id": "C66", "title": "Matrix inverse and determinant", "statement": "inverse(m) throws exactly when the square matrix m is singular, and otherwise returns the matrix whose product with m on either side is the identity; the overload for size 2x2 returns the same. det(m) is the determinant, so it is zero exactly when inverse throws and multiplies over products. The elimination never multiplies a row by more than one. matrix_to_vector followed by vector_to_matrix gives the matrix back.", "quantifier": "all sizes and all matrices over an ordered field (determinant: over a commutative ring)", "why_tests_cant": "A wrong permutation or a missed pivot shows only for matrices that need particular row exchanges, and sizes are unbounded.", "anchors": ["src/vw/Math/Matrix.h: inverse, det, matrix_to_vector, vector_to_matrix", "src/vw/Math/Vector.h: index_norm_inf"]}
{"id": "C67", "title": "Transform functors and their composition", "statement": "For every expression built from identity, resample, translate, linear, affine, rotate and homography functors with inverse and compose, reverse undoes forward and forward undoes reverse at every point off the poles (everywhere if there is no homography). compose applies the second functor first, is associative and has identity as unit; inverse of a composition is the composition of inverses reversed. A rotation keeps its centre and distances. The matrix of affine2mat acts as the functor and mat2affine gives it back.", "quantifier": "all expressions of any depth, all parameters and all points of the plane over an ordered field", "why_tests_cant": "The points and parameters are a continuum and expressions nest without bound.", "anchors": ["src/vw/Math/Transform.h: ResampleTransform, TranslateTransform, LinearTransform, AffineTransform, RotateTransform, HomographyTransform, InverseTransform, CompositionTransform, affine2mat, mat2affine"]}
{"id": "C68", "title": "Bounding boxes of transformed regions", "statement": "forward_bbox(b) and reverse_bbox(b) return a box of pixels that holds the transform of every point of b and exceeds the transforms of the pixels of b by at most one pixel on each side; the box of an empty box is empty. The fast image-size computation, which looks at the perimeter only, gives the box of the full one.", "quantifier": "all boxes, all expressions of functors, all points of the box", "why_tests_cant": "Only four corners (or the border) are looked at while the claim is about every point of the box.", "anchors": ["src/vw/Math/Transform.h: forward_bbox, reverse_bbox", "src/vw/Image/Transform.h: compute_transformed_bbox, compute_transformed_bbox_fast"]}
{"id": "C69", "title": "Interpolation", "statement": "An interpolated view read at a pixel gives that pixel, for nearest, bilinear and bicubic interpolation. Nearest gives a pixel at most half a pixel away in each direction. Bilinear interpolation stays between the least and greatest of the four pixels around the point, reproduces ramps, and does not jump between cells; bicubic interpolation is a Catmull-Rom patch that does not jump between cells and reproduces images quadratic in each coordinate. Interpolation reads only pixels within pixel_buffer of the point.", "quantifier": "all images, all real coordinates in the range of 32-bit integers", "why_tests_cant": "Coordinates are a continuum and images arbitrary; neighbours read matter only at particular offsets.", "anchors": ["src/vw/Image/Interpolation.h: BilinearInterpolationImpl, BicubicInterpolationImpl, NearestPixelInterpolation"]}
{"id": "C70", "title": "Rasterizing a warped image", "statement": "transform(image, functor, edge, interpolation) rasterized over any box of its pixels has in every pixel the value it has when read directly: the interpolation of the edge extended image at the reverse transform of the pixel; the source is only rasterized over the box of the reverse transform, and nothing outside of what was rasterized is read. The same for transform_nodata, whose values never come from edge extension. The identity gives the image, translations by whole pixels move it, magnification by whole numbers keeps its pixels; resample gives the rounded scaled size, resize takes all pixels from within the image.", "quantifier": "all images, edge extensions, interpolation methods, functors, boxes and pixels, whether or not the source is multiply accessible", "why_tests_cant": "The region read depends on functor, box and interpolation; a read outside of the prerasterized region is undefined behaviour that shows for particular boxes only.", "anchors": ["src/vw/Image/Transform.h: TransformView, TransformViewNoData, resample, resize", "src/vw/Image/Interpolation.h: InterpolationView::prerasterize"]}
{"id": "C71", "title": "Approximated transforms", "statement": "A functor with a tolerance is replaced, when rasterizing, by a table of its reverse transforms over a grid with bilinear blending. The refinement of the grid terminates; the approximation is exact on its grid, exact everywhere for affine functors (so setting a tolerance does not change the result), within the range of the functor on the box, and off by no more than the tolerance.", "quantifier": "all functors, boxes, tolerances and points", "why_tests_cant": "The functor is an arbitrary function on a continuum; the code checks some points only.", "anchors": ["src/vw/Image/Transform.h: ApproximateTransform"]}
{"id": "C72", "title": "Queries of the spatial tree", "statement": "Whatever calls of add with whatever levels made a SpatialTree, contains(point, prims) appends exactly the added primitives whose bounding box and which themselves contain the point, contains(point) returns one of these if there is one and null otherwise, intersects(box, prims) appends exactly the primitives whose box overlaps the given one, and overlap_pairs appends each pair of different overlapping primitives exactly once, in one of the two orders, and nothing else.", "quantifier": "all numbers of dimensions, boxes of the tree, sequences of calls of add that return (including those that grow the tree), primitives, points and boxes", "why_tests_cant": "The shape of the tree depends on the whole history of boxes and levels; a node pruned wrongly loses primitives for particular positions only.", "anchors": ["src/vw/Geometry/SpatialTree.cc: apply, ContainsAllFunctor, ContainsOneFunctor, IntersectsAllFunctor, AllOverlapsFunctor, OverlapPairsFunctor"]}
{"id": "C73", "title": "Adding to the spatial tree", "statement": "SpatialTree::add returns, growing the box of the tree if needed, keeps everything that was in the tree, and puts the primitive into the smallest node possible: one whose box contains that of the primitive while no quadrant of it does, unless max_create_level forbids a deeper node. A tree made from a list of primitives holds all of them.", "quantifier": "all numbers of dimensions, histories, primitives and levels", "why_tests_cant": "Termination depends on the geometry of the primitive and on the history of levels; the failing cases do not return at all.", "anchors": ["src/vw/Geometry/SpatialTree.cc: SpatialTree::add, NodeContainsBBoxFunctor, split_bbox, grow_bbox_on_grid, SpatialTree::SpatialTree"]}
{"id": "C74", "title": "Closest primitive", "statement": "SpatialTree::closest returns a primitive of least distance from the point if there is one within the threshold (any distance for a negative threshold), with the distance, and null with distance -1 otherwise.", "quantifier": "all histories of the tree, points, thresholds and primitives whose distance is not less than that of some point of their box, whichever of several equal elements the priority queue returns", "why_tests_cant": "Best-first search with a heuristic: it is only correct if the heuristic never over-estimates, for all boxes and points.", "anchors": ["src/vw/Geometry/SpatialTree.cc: ClosestFunctor, point_to_bbox_distance_heuristic, SpatialTree::closest"]}
{"id": "C75", "title": "Structure of the node trees", "statement": "After any sequence of constructions, set_parent, delete and recursive_delete calls the tree nodes form a forest: parent and child pointers agree, nothing dangles, root() returns. set_parent, delete and recursive_delete change exactly what they name. is_ancestor_of, num_offsprings and the breadth-first, pre-order and post-order traversals see exactly the nodes below the node, each once and in the order the name says, and a node cannot be put below itself.", "quantifier": "all forests built by any history of calls, all nodes", "why_tests_cant": "The intrusive lists depend on the whole history of registrations; the failing cases loop for ever or need particular sibling positions.", "anchors": ["src/vw/Geometry/TreeNode.h: TreeNode, ~TreeNode, recursive_delete, set_parent, register_child, deregister_child, root, is_ancestor_of, num_offsprings, children, pre_order_traverse, post_order_traverse, breadth_first_traverse"]}
{"id": "C76", "title": "Ancestry and last common ancestor", "statement": "ancestry() lists the nodes from the root down to the node, and last_common_ancestor(node) is the lowest node above (or equal to) both nodes, NULL if they are in different trees, whichever of the two nodes it is called on.", "quantifier": "all forests built by any history of calls, all pairs of nodes", "why_tests_cant": "The search is a binary search over the two ancestries, right only because they agree exactly up to some index; depths and positions are unbounded.", "anchors": ["src/vw/Geometry/TreeNode.h: ancestry, last_common_ancestor_index, last_common_ancestor"]}
{"id": "C77", "title": "Transforms between frames", "statement": "get_transform(target, source) converts coordinates of the source frame to coordinates of the target frame: if every frame is placed in the world by composing the transforms from its root down, the transform takes the coordinates of a point in the source to its coordinates in the target. It composes, inverts and is the identity from a frame to itself; converting a transform to a matrix and back changes nothing.", "quantifier": "all trees of frames with invertible transforms built by any history, all pairs and triples of frames, all points", "why_tests_cant": "The product runs along two paths of any length that meet at any ancestor; one swapped factor shows only for transforms that do not commute.", "anchors": ["src/vw/Geometry/FrameTreeNode.cc: get_transform", "src/vw/Geometry/FrameStore.cc: get_transform, get_position_of", "src/vw/Geometry/ATrans.h: ATrans"]}
{"id": "C78", "title": "Setting transforms of frames", "statement": "After set_transform(frame, wrt, t) the frame is at t relative to the frame wrt; frames outside of its subtree do not move relative to each other, nor do those inside. set_transform_rel changes the transform relative to the current one. set_frame_transforms followed by get_frame_transforms returns the given transforms.", "quantifier": "all trees of frames with invertible transforms built by any history, all frames and transforms", "why_tests_cant": "The stored transform is relative to the parent and must be computed through the tree for each position of wrt.", "anchors": ["src/vw/Geometry/FrameTreeNode.h: set_transform, get_transform_of", "src/vw/Geometry/FrameStore.cc: set_transform, set_transform_rel, get_frame_transforms, set_frame_transforms"]}
{"id": "C79", "title": "The frame store stays a forest with unique names", "statement": "Whatever calls of add, del, set_parent and merge_tree are made, each returns or throws, roots have no parent, siblings have different names and so have roots, and a frame whose name cannot be looked up is refused by add.", "quantifier": "all histories of legal calls (valid handles; trees handed over have unique sibling names)", "why_tests_cant": "Uniqueness is an invariant of the whole history; each operation must keep it for every shape of the forest.", "anchors": ["src/vw/Geometry/FrameStore.cc: add, del, set_parent, merge_tree, is_member, assert_unique", "src/vw/Geometry/FrameStore.h"]}
{"id": "C80", "title": "Looking up frames by name", "statement": "The full name of a frame lists the names from its root down; lookup of the full name returns the frame; full names of different frames differ. Lookup of a plain name returns a frame of that name if there is one, one nearest to the top; with a scope, only frames below the scope are found.", "quantifier": "all histories, frames, names without slashes that are not dots, and scopes", "why_tests_cant": "The path is split, dots are rewritten and the forest is searched breadth first; whether the result is the intended frame depends on all the other names.", "anchors": ["src/vw/Geometry/FrameStore.cc: full_name, lookup", "src/vw/Geometry/FrameTreeNode.cc: splitPath, matchNode, lookup"]}
{"id": "C81", "title": "Merging trees into the store", "statement": "merge_tree(tree, start) leaves in the store the union of the two trees by path, keeping the frames of the store where both have one, and deletes the merged tree; without a root of that name the tree becomes a new root; it is refused if the tree is in the store.", "quantifier": "all histories, trees with unique sibling names, and start frames", "why_tests_cant": "The merge walks two sorted child lists in parallel with one shared iterator at every level of two trees of any shape.", "anchors": ["src/vw/Geometry/FrameStore.cc: merge_tree", "src/vw/Geometry/FrameTreeNode.cc: merge_frame_trees"]}
{"id": "C82", "title": "Membership, deletion and moving of frames", "statement": "is_member is true for exactly the frames of the store, frame_names lists their full names once each, del removes the frame (and what is below it, if recursive) and nothing else, and set_parent moves the frame and nothing else; it is refused if the frame or the parent is not in the store or if the parent is below the frame.", "quantifier": "all histories of legal calls, all frames", "why_tests_cant": "Membership follows pointers through the forest; a move that makes a cycle shows only in later calls, which do not return.", "anchors": ["src/vw/Geometry/FrameStore.cc: is_member, frame_names, del, set_parent"]}
{"id": "C83", "title": "Control network from match files", "statement": "build_control_network makes a network of any set of match files between different images. Every tie point has at least two measures, at most one in each image; its measures are interest points of the match files (with enough matches, after thinning), connected with each other by chains of matches; no interest point is in two tie points. An interest point in a match is in a tie point, and interest points connected by matches are in the same one. The result does not depend on the direction in which a pair of images was matched. Thinning keeps the asked number of matches in their order.", "quantifier": "all sets of match files, minimum and maximum numbers of matches, and random permutations", "why_tests_cant": "Tracks grow match by match through nested maps; whether two connected interest points meet depends on the order of all the pairs of images.", "anchors": ["src/vw/BundleAdjustment/ControlNetworkLoader.cc: build_control_network, matchesToMvg, buildTracks, matchMapToCnet", "src/vw/InterestPoint/InterestPointUtils.h: pick_pair_subset", "src/vw/Math/RandomSet.cc: pick_random_indices_in_range"]}
{"id": "C84", "title": "Camera relation network", "statement": "from_cnet turns any control network into one node per image with one feature per measure: node i lists the measures in image i in order; each feature is connected with exactly the other measures of its control point, each once, symmetrically; the map of a feature leads to the connected feature in a camera, and equal_range(c) of the map of a node lists, in order and once each, the features seen also by camera c: exactly one for each control point with measures in both images.", "quantifier": "all control networks and sizes of the image list", "why_tests_cant": "Features are linked by pointers in nested loops over the measures; a missed or doubled link shows only for particular numbers of measures.", "anchors": ["src/vw/BundleAdjustment/CameraRelation.cc: add_node, build_map, from_cnet", "src/vw/BundleAdjustment/CameraRelation.h: FeatureBase, CameraNode, CameraRelationNetwork"]}
{"id": "C85", "title": "Random sample consensus", "statement": "Whatever the random numbers and the order in which threads finish: samples consist of different positions in the data; the model returned comes from a sample whose model has at least the required number of inliers, was fitted again to them, and no other such candidate has a smaller mean error; it fails exactly if there is no candidate or the data cannot be used; the result does not depend on the number or timing of threads; the model returned has at least the required number of inliers, and the required number is reduced only within a call and only if allowed, by a third for each of at most nine repetitions and not below two. If some sample leads to a model that fits enough data exactly, the model returned does so too.", "quantifier": "all data, fitting and error functors, thresholds, random numbers and thread schedules", "why_tests_cant": "The result depends on the random numbers and on a race for the critical section; schedules and ties cannot be enumerated by tests.", "anchors": ["src/vw/Math/RANSAC.h: RandomSampleConsensus::operator(), attempt_ransac, get_n_unique_integers, inliers, inlier_indices, reduce_min_num_output_inliers"]}
{"id": "C86", "title": "Nelder-Mead minimisation", "statement": "Whatever the function, the result of nelder_mead has as many coordinates as the seed and never a higher value than the seed, nor, if at least one run is made, than the seed moved along an axis by its scale; the minimisation always ends, after at most max_iterations + 2 updates for each run, and if the status says that it converged the last update changed the highest value by no more than the tolerance. At any time the simplex has one vertex more than there are dimensions and each has the value of the function at its position; the value reported never increases; the points tried are the reflection, extension and contractions of the highest vertex about the centroid of the others. The result is the best of all the points at which the function was evaluated.", "quantifier": "all functions, seeds, scales, tolerances, numbers of restarts and iterations", "why_tests_cant": "The path of the simplex depends on the function; no sample of functions shows that no path ends above the seed.", "anchors": ["src/vw/Math/NelderMead.h: Simplex::update, insert_vertex, mean_vertex_location, nelder_mead"]}
{"id": "C87", "title": "Levenberg-Marquardt minimisation", "statement": "Whatever the model function and the solutions of the linear equations, the error at the result is never larger than at the seed, and never increases from one accepted point to the next; the status says absolute convergence exactly if the error at the result is below the absolute tolerance, relative convergence only if the last accepted step decreased the error by less than the relative tolerance, and otherwise the allowed number of iterations was made. If the linear equations are solved, the step is zero only where the gradient vanishes, is a descent direction elsewhere, and for a model that is linear in the parameters the first trial of each iteration is accepted and strictly better. A seed where the gradient vanishes is returned at once.", "quantifier": "all model functions, Jacobians, observations, seeds and tolerances", "why_tests_cant": "The trial points depend on the model function; the loop conditions interact over up to 100 outer and 6 inner iterations.", "anchors": ["src/vw/Math/LevenbergMarquardt.h: levenberg_marquardt, levenberg_marquardtFixed"]}
{"id": "C88", "title": "Steepest descent and conjugate gradients", "statement": "A step of Armijo goes along the given direction by the first of the lengths s, s b, s b^2, ... at which the function decreases by at least sigma times what the slope promises, so that along a direction that does not go up the function never increases; a step of Charalambous ends only at a point that satisfies the strong Wolfe conditions. Steepest descent with Armijo steps never increases the function, and for a function with Lipschitz gradient decreases it at each step in proportion to the squared gradient, so that after N steps from the seed some point passed had a squared gradient of at most a constant over N. conjugate_gradient goes along the Fletcher-Reeves directions, restarting with the gradient every 20 steps; its result is never worse than the seed, and a seed where the gradient vanishes is returned.", "quantifier": "all functions, gradients, seeds, step parameters and numbers of iterations", "why_tests_cant": "The path depends on the function; convergence is a statement about all smooth functions and all numbers of steps.", "anchors": ["src/vw/Math/ConjugateGradient.h: ArmijoStepSize, CharalambousStepSize, ConstantStepSize, steepest_descent, conjugate_gradient"]}
{"id": "C89", "title": "Particle swarm minimisation", "statement": "The result of particle_swarm_optimization is one of the points at which the function was evaluated, is never worse than the lower corner of the box, and is the best of all points at which the function was evaluated; particles start inside the box at rest, no particle is ever faster than the greatest speed given, and the result lies in the box.", "quantifier": "all functions, boxes, numbers of particles, iterations and restarts, and all sequences of random numbers", "why_tests_cant": "The search is random; no set of seeds shows that the best point is never lost.", "anchors": ["src/vw/Math/ParticleSwarmOptimization.h: particle_swarm_optimization"]}
{"id": "C90", "title": "Newton-Raphson solver in the plane", "statement": "solve evaluates the function in at most 19 iterations; when it ends because of the tolerance, the result is the last point evaluated plus the solution of the linearised equations, shorter than the tolerance; otherwise the result is the best of the points evaluated, or the guess if the function has no value there. The numerical Jacobian is exact for polynomials of degree at most two, and for an affine map whose determinant is not tiny the solution is found from any guess. The result is never worse than the guess.", "quantifier": "all functions (also those that throw or return NaN), Jacobians, guesses, targets, steps and tolerances", "why_tests_cant": "The iterates depend on the function; each way the loop ends has its own result.", "anchors": ["src/vw/Math/NewtonRaphson.cc: numericalJacobian, NewtonRaphson::solve"]}
{"id": "C91", "title": "Masked pixels and mask views", "statement": "An expression over masked pixels (operations by channel between pixels, with scalars and masked scalars, and safe quotients, also in place) is valid exactly if all pixels and scalars it is made of are valid, and its channels are what the expression says without masks. create_mask and its variants make exactly the values outside the no-data value or range invalid, and NaN always; apply_mask replaces exactly the invalid pixels, so that masking a no-data value and putting it back gives the image again; copy_mask, intersect_mask, union_mask and invert_mask act on validity as the set operations they are named after and keep all values; converting a mask to alpha and back keeps it. edge_mask masks exactly the pixels of the mask value that are connected to the edge along their row or column. The mean of the channels of a valid masked pixel is that of the pixel; a safe quotient never divides by zero.", "quantifier": "all pixels, numbers of channels, expressions, images, mask values and buffers", "why_tests_cant": "Validity must be propagated by every operation in every expression; each functor has separate code for one to four channels and for more.", "anchors": ["src/vw/Image/PixelMask.h: PixelMask, BinaryCompoundFunctor, UnaryCompoundFunctor, in-place functors, ArgArgMaskedSafeQuotientFunctor, mean_channel_value", "src/vw/Image/MaskViews.h: create_mask, apply_mask, copy_mask, union_mask, intersect_mask, invert_mask, mask_to_alpha, alpha_to_mask, EdgeMaskView"]}
{"id": "C92", "title": "Left-right consistency check of disparity maps", "statement": "cross_corr_consistency_check leaves a pixel of the left map valid exactly if it was valid, leads to a place in the right map that is valid there, and the two disparities cancel up to the threshold (inclusive) in both coordinates. It changes no disparity and no pixel outside of the map, writes the difference of each pixel kept at its place (plus the offset) in the image of differences and nothing else, reports the number of pixels kept, and doing it again changes nothing. Two pixels kept that lead to the same place are at most twice the threshold apart, so with threshold zero the kept matches are one to one.", "quantifier": "all maps, sizes, thresholds and offsets", "why_tests_cant": "The check reads one map at places given by the other; the guarantee is about all pairs of maps.", "anchors": ["src/vw/Stereo/Correlate.cc: cross_corr_consistency_check"]}
{"id": "C93", "title": "Masks and warps of disparity maps", "statement": "disparity_mask keeps the disparity of exactly the pixels in the left mask whose disparity is valid and leads to a pixel of the right mask; computed tile by tile, with the tile reading only the part of the right mask it has put in memory, the result is the same. disparity_range_mask keeps exactly the valid pixels that lead into the box less its last column and row. transform_disparities keeps validity and leads to where the transform takes the old place. intersect_mask_and_data is valid where either is, with the first having precedence.", "quantifier": "all maps, masks, tiles, search ranges and transforms", "why_tests_cant": "Tiling must be invisible for every tile and every disparity; which part of the right mask is needed depends on the data.", "anchors": ["src/vw/Stereo/DisparityMap.h: DisparityMaskView, DisparityRangeMaskFunc, TransformDisparitiesFunc, transform_disparities, IntersectPixelMaskData"]}
{"id": "C94", "title": "Resampling and outlier removal of disparity maps", "statement": "disparity_subsample makes a pixel valid exactly if one of the nine pixels around its place is, and its disparity is half a weighted mean of theirs, between half their bounds (towards zero for integers); every pixel of the map is around one of the result. disparity_upsample doubles the disparities of the pixel; halving a doubled map that is constant around a pixel gives it back. The outlier filters never change a disparity or make a pixel valid, and keep a valid pixel exactly if the share of agreeing pixels of the window is at least the one asked for, or its distance from the mean is at most the one given, or at most the given multiple of the deviation. Tiles read only what they ask their child for. std_dev_image is zero on constant images.", "quantifier": "all maps, window sizes, thresholds, pixels and tiles", "why_tests_cant": "Each filter reads a neighbourhood with a mix of valid and invalid pixels; memory safety of tiles and vectors depends on sizes.", "anchors": ["src/vw/Stereo/DisparityMap.h: DisparitySubsampleView, DisparityUpsampleView, RmOutliersUsingThreshFunc, RmOutliersUsingMeanFunc, RmOutliersUsingStdDev, StdDevImageFunc", "src/vw/Image/PerPixelAccessorViews.h: pad_bbox"]}
{"id": "C95", "title": "Triangulation from several cameras", "statement": "Triangulating the pixels a point is seen at gives that point with error zero, for any number of cameras whose rays pass through it, are not all parallel, and pass the test for parallel rays. For two rays the result is the middle of the shortest segment between the lines, the error that segment; it does not depend on the order of the cameras or the length of the directions. For more rays the result is the one point with the least sum of squares of distances. Pixels that are invalid or NaN are left out; if fewer than two rays remain, one fails or all are nearly parallel, the result is zero; a wrong number of pixels is an error. The point is in front of the cameras.", "quantifier": "all lists of cameras, pixels, rays and tolerances", "why_tests_cant": "Least squares optimality and uniqueness range over all points and all configurations of rays; singular systems are rare events.", "anchors": ["src/vw/Stereo/StereoModel.cc: triangulate_pair, are_nearly_parallel, triangulate_point, StereoModel::operator()"]}
{"id": "C96", "title": "CAHV camera model", "statement": "A point has a pixel exactly if it is not in the plane of the camera, and the pixel is the one whose two planes hold the point. Every pixel has a unit direction in front of the camera, and all points of its line project to the pixel; the direction of the pixel of a point in front of the camera is the direction to the point. Points seen by several such cameras are triangulated exactly. The constructors give the pinhole projection. Epipolar rectification keeps the centres, gives both cameras the same orientation and mean scales and centres, and both see every point in the same row.", "quantifier": "all cameras whose three vectors are independent, all points and pixels", "why_tests_cant": "Projection and back projection have to be inverse for all points and handedness of cameras.", "anchors": ["src/vw/Camera/CAHVModel.cc: point_to_pixel, pixel_to_vector, camera_center, constructors, epipolar"]}
{"id": "C97", "title": "Rotations as quaternions, matrices and axis with angle", "statement": "The matrix of a product of quaternions is the product of the matrices, that of a unit quaternion a rotation, and rotating a vector is multiplying with it; the inverse gives the transpose. Every rotation matrix comes back from its quaternion, every unit quaternion up to sign from its matrix. Axis with angle gives the same matrix directly or through a quaternion, and comes back. Interpolation gives the ends for 0 and 1, unit quaternions in between and constant speed; interpolation of several with weights that are not negative and sum to one is defined.", "quantifier": "all quaternions, matrices, angles, weights and lists", "why_tests_cant": "Four branches of the conversion depend on the largest diagonal sum; correctness is needed on all of them, including half turns.", "anchors": ["src/vw/Math/Quaternion.h: Quaternion, rotation_matrix, rotate, axis_angle, axis_angle_to_quaternion, axis_angle_to_matrix, matrix_to_axis_angle", "src/vw/Math/Quaternion.cc: slerp, slerp_n"]}
{"id": "C98", "title": "Pinhole camera model", "statement": "After any history of calls of the setters the projection of a camera is determined by its parameters: the pixel of a point is the lens distortion of focal length times the slopes in the camera frame plus the offset, divided by the pitch; exactly the points in the camera plane have none. projection_valid is true exactly for points in front. Pixel to direction and projection are inverse for points in front if the lens is inverse to itself. point_to_pixel with its check on gives only pixels whose direction is that to the point. Scaling a camera scales its pixels, stripping the lens removes exactly the lens, applying a similarity transform moves camera and world alike. Failing calls leave the camera as it was.", "quantifier": "all cameras, frames, lenses, points, pixels and all histories of setter calls", "why_tests_cant": "The matrices are cached; that no history leaves a stale one, and that projection and back projection agree everywhere, is not settled by cases.", "anchors": ["src/vw/Camera/PinholeModel.cc: rebuild_camera_matrix, point_to_pixel, point_to_pixel_no_check, point_to_pixel_no_distortion, projection_valid, pixel_to_vector, setters, apply_transform, scale_camera, strip_lens_distortion"]}
{"id": "C99", "title": "Rectification of pinhole cameras and conversion to and from CAHV", "statement": "Epipolar rectification of two pinhole cameras keeps the centres, gives both the same rotation, mean intrinsics and no lens, and both see every point in the same row. A pinhole camera without lens and its CAHV camera see every point at the same pixel; a CAHV camera and the pinhole camera made from it see every point at the same pixel, and the conversion does not change its source.", "quantifier": "all pairs of cameras, all CAHV vectors, all points", "why_tests_cant": "Equal rows must hold for all points and all relative poses; the special frames and skew where it fails are rare.", "anchors": ["src/vw/Camera/PinholeModel.cc: epipolar", "src/vw/Camera/CAHVModel.cc: operator=(PinholeModel), toPinhole"]}
{"id": "C100", "title": "Euler angles", "statement": "The matrix of three angles and three letters is the rotation by the angles about the named axes one after the other; other letters or numbers of letters are an error. The functions that take angles from a rotation matrix in the orders xyz, zyx, yxz and zxy give the angles in their ranges whose matrix is the given one, and the angles of the matrix of angles in the ranges are these. Quaternions made from xyz angles have the same matrix; the angles of a unit quaternion give the same rotation back.", "quantifier": "all angles, all rotation matrices, all unit quaternions, all strings of letters", "why_tests_cant": "Signs and quadrants of four different conventions over three continuous angles, and gimbal lock on a surface of measure zero.", "anchors": ["src/vw/Math/EulerAngles.h: rotation_x_axis, rotation_y_axis, rotation_z_axis, euler_to_rotation_matrix, euler_to_quaternion, rotation_matrix_to_euler_xyz, rotation_matrix_to_euler_zyx, rotation_matrix_to_euler_yxz, rotation_matrix_to_euler_zxy, euler_xyz_to_quaternion, quaternion_to_euler_xyz"]}
{"id": "C101", "title": "Adjusted camera model", "statement": "An adjusted camera is the camera inside moved by the rigid transform rotation about the centre of rotation plus translation, with pixels scaled and shifted: centres, directions and poses are the moved ones, and a moved point is seen where the camera inside sees the point. So points are on the rays of their pixels if they are for the camera inside. This holds after any history of setters and after applying a similarity transform, which moves the adjusted camera as it moves the world. The 4 by 4 matrix of the adjustments is the rigid transform. What is written to a file is read back.", "quantifier": "all cameras inside, all adjustments, all histories of calls, points and pixels", "why_tests_cant": "The inverse rotation is stored; that no history leaves a stale one is a statement about all histories.", "anchors": ["src/vw/Camera/CameraModel.cc: AdjustedCameraModel", "src/vw/Camera/CameraModel.h: AdjustedCameraModel"]}
{"id": "C102", "title": "Refraction at a plane", "statement": "A ray meets a plane exactly if it descends, in the one point of its line on the plane, ahead of its start if that is above. The law of refraction at a plane with unit normal gives that point and the one direction that is of unit length, goes down, lies in the plane of ray and normal on the same side, with sines in the ratio of the index, exactly if the ray descends and the index is more than one.", "quantifier": "all planes, rays, and refraction indices", "why_tests_cant": "The direction comes from a quadratic equation whose discriminant and sign of root must be right for all angles and indices.", "anchors": ["src/vw/Cartography/SnellLaw.cc: signedDistToPlaneAux, rayPlaneIntersect, snellLaw"]}
{"id": "C103", "title": "Stereo through water", "statement": "With a water surface set up, two rays that meet above the water give that point, reported as uncorrected; rays that meet below give the point closest to the refracted rays, reported as corrected, and the point itself if they meet: a point under flat water is found exactly. With a surface for each image, of the four combinations of parts before and in the water the first that meets on the right sides of both surfaces counts, and nothing gives zero. Where the map projection is rigid the bending at the curved surface is the law of refraction. Setting up refuses an index of at most one, other than two surfaces, or other than four coefficients. Without a request for refraction or with other than two rays the result is plain triangulation.", "quantifier": "all cameras, pixels, surfaces and ways of bending rays, indices, histories of set-up", "why_tests_cant": "Which of the parts of two bent rays meet depends on five sign conditions over a continuum of geometry.", "anchors": ["src/vw/Cartography/BathyStereoModel.cc: BathyStereoModel::set_bathy, BathyStereoModel::operator()", "src/vw/Cartography/BathyStereoModel.h: BathyStereoModel", "src/vw/Cartography/BathyRay.cc: rayBathyPlaneIntersect, curvedSnellLawAgainstPlane"]}
{"id": "C104", "title": "Water plane fit, masks and list of planes", "statement": "The plane fitted to points is the one of least sum of squared vertical distances, with unit normal pointing up, and the only one; it fails exactly for fewer than three points or points above one horizontal line; points of one plane give that plane. Water in a mask is where there is no data or a value of at most zero; correction applies exactly if both pixels are within half a pixel of their masks and both nearest pixels are water. One plane file serves all images, else each image has its own, else it is an error.", "quantifier": "all lists of points, masks, pixels, lists of planes", "why_tests_cant": "Optimality is over all planes and all lists of points; degenerate configurations are a set of measure zero.", "anchors": ["src/vw/Cartography/BathyData.cc: fitPlaneToPoints, read_bathy_mask, areMasked, readBathyPlanes", "src/vw/Math/LinearAlgebra.h: solve_symmetric"]}
{"id": "C105", "title": "Piecewise interpolation of positions", "statement": "For samples at equal positive steps: linear interpolation gives at every time between two samples the point of their segment, thus every sample at its time, and an error outside the range. With velocities, the interpolation with accelerations gives the motion from the sample with its velocity and the mean acceleration of the segment, so a motion of constant acceleration is reproduced; Hermite interpolation gives on each segment one cubic curve with the positions and velocities of both samples, so a cubic curve is reproduced; times outside the range are an error.", "quantifier": "all lists of samples, start times, positive steps, times", "why_tests_cant": "The index of a segment comes from floor and ceil of a quotient and must be right at every sample, at both ends and between.", "anchors": ["src/vw/Math/PositionInterp.cc: LinearPiecewisePositionInterpolation, PiecewiseAPositionInterpolation, HermitePositionInterpolation"]}
{"id": "C106", "title": "Lagrange interpolation of positions", "statement": "For increasing times and a radius, with at least twice the radius samples: at a time between two samples the result is the value of the one curve of polynomials of degree below twice the radius through the samples of the window around the time, moved only as far as the ends require; so it goes through the samples, and curves of such degree are reproduced. Too few samples are an error; with equal steps also times outside the range. Calls of several threads on one object give what they give alone.", "quantifier": "all lists of samples, times, radii; all interleavings of threads", "why_tests_cant": "The window moves with the time and with the ends of the list; exactness is over all polynomials; threads share a hidden array.", "anchors": ["src/vw/Math/PositionInterp.cc: LagrangianInterpolationVarTime, LagrangianInterpolation", "src/vw/Math/PositionInterp.h: m_times_temp"]}
{"id": "C107", "title": "Weighted means of positions, times of lines", "statement": "The smoothed position at a time is a mean of the nearest samples, as many as asked for, with positive weights that add up to one and are in proportion to a Gaussian of the distance: it stays within bounds of the samples, and a point at rest stays. The time of an image line from a table with increasing lines lies on the straight line between the entries around it, and on that of the end pairs outside.", "quantifier": "all samples, times, numbers of weights, widths; all tables and lines", "why_tests_cant": "The selection is by sorting of computed weights; the table is looked up with lower_bound, at, between and outside its entries.", "anchors": ["src/vw/Math/PositionInterp.cc: get_wts_and_indices, SmoothPiecewisePositionInterpolation", "src/vw/Camera/TimeInterp.cc: TLCTimeInterpolation"]}
{"id": "C108", "title": "Interpolation of orientations", "statement": "For orientations at equal positive steps, a time between two samples gives the spherical interpolation by the fraction of the step, a time at or within a tiny part of a step of a sample gives the sample, and other times are an error; from unit quaternions come unit quaternions up to the tolerance. The smoothed version has a result for every time of the range exactly with two samples and a weight. Lagrange interpolation gives in each component the polynomial through the samples of the window, made a unit: the samples at their times. An orientation at rest stays at rest.", "quantifier": "all lists of quaternions, start times, steps, times, radii, weights", "why_tests_cant": "Samples and times are arbitrary; a rotation has two quaternions, and any signs may come in.", "anchors": ["src/vw/Math/QuatInterp.cc: SLERPPoseInterpolation, SmoothSLERPPoseInterpolation, QuatLagrangianInterpolationVarTime"]}
{"id": "C109", "title": "Directions on a grid", "statement": "For a table of directions with positive steps: at the points of the grid the direction itself, inside a cell the spherical interpolation along rows and then columns of the four directions around, rows outside the table are an error. Columns outside the table go on in a straight line from the nearest two columns.", "quantifier": "all rectangular tables, steps, offsets, pixels", "why_tests_cant": "Cells, edges and the outside on both sides behave differently; the indices come from coordinates.", "anchors": ["src/vw/Math/QuatInterp.cc: SlerpGridPointingInterpolation"]}
{"id": "C110", "title": "Pixel and map coordinates", "statement": "For every georeference a program can make (by the constructors, set_transform, set_pixel_interpretation, set_well_known_text, crop, resample), point_to_pixel and pixel_to_point are inverse to each other. A pixel is at the map position the affine transform gives, shifted by half a pixel when pixels are areas. set_transform accepts exactly the invertible transforms. Cropping and resampling keep every place of the ground where it is.", "quantifier": "all georeferences reachable by any sequence of operations, all points", "why_tests_cant": "Transforms, offsets and scales are arbitrary, and the half-pixel shift is kept in two cached matrices by every operation.", "anchors": ["src/vw/Cartography/GeoReference.cc: set_transform, pixel_to_point, point_to_pixel, crop, resample", "src/vw/Cartography/GeoReference.h: GeoReference"]}
{"id": "C111", "title": "Boxes of georeferenced images", "statement": "The box of map, longitude-latitude or pixel coordinates found for a box contains the coordinates of every place in the box.", "quantifier": "all boxes, all georeferences, any projection", "why_tests_cant": "Boxes are found from samples; whether these suffice depends on every box and projection.", "anchors": ["src/vw/Cartography/GeoReference.cc: pixel_to_point_bbox, point_to_pixel_bbox, pixel_to_lonlat_bbox, lonlat_to_pixel_bbox, point_to_lonlat_bbox, lonlat_to_point_bbox", "src/vw/Cartography/GeoReferenceUtils.cc: sample_int_box, sample_float_box"]}
{"id": "C112", "title": "Longitudes of georeferenced images", "statement": "A longitude is shifted by full turns to be within 180 degrees of the middle of the image, when one turn is enough; the shift never changes the place. For each pixel of an image no wider than 360 degrees, the pixel of its longitude and latitude is the pixel itself.", "quantifier": "all reachable georeferences, longitudes, images", "why_tests_cant": "The wrap depends on a cached box that several operations update.", "anchors": ["src/vw/Cartography/GeoReference.cc: pixel_to_lonlat, lonlat_to_pixel, lonlat_to_point, set_wkt, ll_box_from_pix_box"]}
{"id": "C113", "title": "Conversion between two georeferenced images", "statement": "forward takes a pixel of the first image to the pixel of the second which shows the same place, reverse is its inverse, the conversions of points agree with those of pixels, the boxes contain the conversion of each place of the box, and reproject_point_image converts points.", "quantifier": "all pairs of reachable georeferences, pixels, points, boxes", "why_tests_cant": "Pairs of images with different extents, projections and longitude ranges are arbitrary, and a shortcut is taken for some of them.", "anchors": ["src/vw/Cartography/GeoTransform.cc: GeoTransform, forward, reverse, point_to_point, pixel_to_point, point_to_pixel, forward_bbox, reverse_bbox, reproject_point_image"]}
{"id": "C114", "title": "Geodetic and cartesian coordinates", "statement": "geodetic_to_cartesian gives the point at the given height along the outward normal of the spheroid whose direction has the given longitude and latitude. cartesian_to_geodetic is its inverse: the coordinates of a point give the point back, with latitude in [-90, 90] and longitude in (-180, 180] (before the meridian offset), and coordinates in range, not below the centre of curvature, are found again.", "quantifier": "all oblate spheroids, all points, all longitudes, latitudes and heights", "why_tests_cant": "The inverse is a closed formula with five cases chosen by the sign of an evolute; the cases near the centre are hardly ever met by samples.", "anchors": ["src/vw/Cartography/Datum.cc: Datum::geodetic_to_cartesian, Datum::cartesian_to_geodetic"]}
{"id": "C115", "title": "Radii and latitudes of the datum", "statement": "radius, geocentric_latitude, radius_of_curvature, geocentric_radius and inverse_flattening are the geometric quantities of the spheroid at a geodetic latitude.", "quantifier": "all oblate spheroids, latitudes, altitudes", "why_tests_cant": "Formulas over all latitudes and spheroids, with special cases for spheres.", "anchors": ["src/vw/Cartography/Datum.cc: Datum::radius, Datum::geocentric_latitude, Datum::radius_of_curvature, Datum::geocentric_radius, Datum::inverse_flattening"]}
{"id": "C116", "title": "North, east and down", "statement": "lonlat_to_ned_matrix gives the unit vectors to the north, east and down at a position: perpendicular to each other, down opposite to the normal, north tangent to the meridian.", "quantifier": "all oblate spheroids, all positions", "why_tests_cant": "The axes are differences of positions at small steps, clipped at the poles, for every position.", "anchors": ["src/vw/Cartography/Datum.cc: Datum::lonlat_to_ned_matrix"]}
{"id": "C117", "title": "Ray and datum", "statement": "datum_intersection returns the first point of the ray that is on the spheroid, and the zero vector if there is none.", "quantifier": "all spheroids, camera positions, directions", "why_tests_cant": "All positions, also inside the spheroid, and directions.", "anchors": ["src/vw/Cartography/Datum.cc: datum_intersection"]}
{"id": "C118", "title": "Manager of open image files", "statement": "A reference returned by get_handle stays valid until it is released, whatever other threads ask for. The number of open files never exceeds the limit set when a file could not be opened. When room is needed, the unused open image furthest from the wanted box is closed, one that shows a part of the box only if there is no other; get_handle fails only if all open images are in use.", "quantifier": "all histories of calls by any threads, all boxes, any number of images, any failures to open", "why_tests_cant": "Which handle is closed depends on the whole history of calls of all threads.", "anchors": ["src/vw/FileIO/DiskImageManager.h: DiskImageManager, get_handle, release, add_file_handle_not_thread_safe, freeup_handles_not_thread_safe"]}
{"id": "C119", "title": "Numbers of threads and deadlines", "statement": "Thread::id returns the same number in each call of one thread and different numbers in different threads, and cannot deadlock. sleep_ms and timed_wait end at the present time plus the number of milliseconds.", "quantifier": "all numbers of threads, all schedules, all times", "why_tests_cant": "All interleavings of threads.", "anchors": ["src/vw/Core/Thread.cc: Thread::id", "src/vw/Core/Thread.h: Thread::sleep_ms", "src/vw/Core/Condition.h: Condition::timed_wait"]}
{"id": "C120", "title": "RPC lens distortion", "statement": "RPCLensDistortion accepts exactly 2(d+1)(d+2)-2 parameters for a degree d from 1, finds the degree from their number, and its normalised distortion is in each coordinate the quotient of two polynomials with the coefficients in the order 1, x, y, x^2, xy, y^2, ..., the constant of the denominator being one. reset makes the identity, increment_degree keeps the distortion, pack and unpack are inverse, and a lens written to a file and read again is the same lens. Where the distortion is affine, undistorting is the exact inverse of distorting.", "quantifier": "all degrees, all coefficients, all pixels, all cameras", "why_tests_cant": "All degrees and coefficients; the degree comes from a rounded square root.", "anchors": ["src/vw/Camera/LensDistortion.cc: RpcDistortion, RPCLensDistortion::distorted_coordinates, undistorted_coordinates, validate_distortion_params, init_as_identity, increment_degree, unpack_params, pack_params, write, read, reset", "src/vw/Camera/LensDistortion.h: RPCLensDistortion::rpc_degree, num_dist_params"]}
{"id": "C121", "title": "Tsai, field of view, fisheye, Brown-Conrady, Photometrix lenses", "statement": "Each lens model computes its documented formula; the Jacobian of the Tsai model is its derivative; zero parameters mean no distortion; undistorting a pixel distorted by the field of view model gives it back exactly, everywhere; fisheye distortion with non-negative coefficients is one to one; a pixel returned by the models that invert by optimisation undistorts to the given one within 1e-10; scaling a lens with the image size scales the distortion; parameters written to a file are read back, in any order of lines, and an old Tsai file without k3 gives k3 = 0.", "quantifier": "all parameters, all pixels, all cameras, all results of the solver, all orders of lines", "why_tests_cant": "All real pixels and parameters, including those at the switch of formulas near the centre.", "anchors": ["src/vw/Camera/LensDistortion.cc: LensDistortion::distorted_coordinates, TsaiDistortionNorm, TsaiDistortionJacobian, TsaiLensDistortion, FovLensDistortion, fishEyeDistortionNorm, FisheyeLensDistortion, BrownConradyDistortion, AdjTsaiDistortionNorm, AdjustableTsaiLensDistortion, PhotometrixLensDistortion, read_fields_in_vec"]}
{"id": "C122", "title": "Edges, points, polygons, boxes", "statement": "edgeIntersectsHorizontalEdge and edgeIntersectsBox tell exactly whether the edge shares a point with the other edge or the box; edgesIntersect reports every pair of edges that share a point, and for edges that are not parallel gives a point that is on both; isPointInPolyOrOnEdges is true exactly for points on an edge or around which the polygon winds an odd number of times; minDistFromPtToSeg gives the closest point of the segment; signedPolyArea is the signed area, multiplied by the determinant under a linear transform and negated when the polygon is reversed; expandBoxToRatio gives the smallest box around the same centre with the aspect ratio; boxesIntersect and the composition of transforms are what they say.", "quantifier": "all edges, boxes, polygons of any number of vertices, self-intersecting or not, all points, all transforms", "why_tests_cant": "All positions, including vertices on the ray of the crossing test, degenerate edges and vertical edges.", "anchors": ["src/vw/Geometry/edgeUtils.cc: edgeIntersectsBox, edgeIntersectsHorizontalEdge, isPointOnEdge, collinearEdgesIntersect, edgesIntersect", "src/vw/Geometry/geomUtils.cc: minDistFromPtToSeg, signedPolyArea, expandBoxToRatio, boxesIntersect, composeTransforms, transAroundPt, isPointInPolyOrOnEdges"]}
{"id": "C123", "title": "Clipping of polygons to a window", "statement": "cutPoly, given any closed polygons and a window, returns polygons that are not empty and have all vertices in the window, and that wind around every point inside of the window that is on no input edge exactly as often as the input does, and around no point outside of the window. Polygons inside of the window are returned as they are. Cutting along a line splits the area of a polygon. The order in which std::sort puts points with equal keys does not matter.", "quantifier": "all polygons, self-intersecting, with holes or touching the window, all windows, all points, all orders of ties", "why_tests_cant": "Any number of crossings, vertices on the cutlines and edges along them; the components are found by walking a permutation.", "anchors": ["src/vw/Geometry/cutPoly.cc: cutPoly, cutToHalfSpace, processPointsOnCutline", "src/vw/Geometry/edgeUtils.cc: cutEdge"]}
{"id": "C124", "title": "Editing a set of polygons (dPoly)", "statement": "A dPoly that holds a list of polygons, each with its vertices, closed flag, color and layer, holds after each editing operation exactly the list that the operation says: appending polygons, rectangles or another dPoly, setting a polygon, shifting, rotating, scaling and transforming all or the marked polygons, inserting, erasing and changing a vertex, shifting an edge or a polygon, reversing polygons, extracting, erasing and replacing polygons, appending shifted copies of the marked ones, setting colors and closedness. All other polygons, their attributes and the annotations are unchanged, and the list is determined by what the accessors return.", "quantifier": "all dPoly objects that hold a list of polygons, of any number and size, also empty ones; all indices, marks and transforms", "why_tests_cant": "The polygons are stored as flat arrays with running offsets; every operation must keep arrays, counts and attributes in step for all sizes and marks.", "anchors": ["src/vw/Geometry/dPoly.cc: appendPolygon, appendPolygons, appendRectangle, setPolygon, setRectangle, shift, rotate, scale, applyTransform, transformMarkedPolys, insertVertex, eraseVertex, changeVertexValue, shiftEdge, shiftOnePoly, shiftMarkedPolys, reverse, reverseMarkedPolys, extractOnePoly, extractMarkedPolys, appendAndShiftMarkedPolys, eraseMarkedPolys, eraseOnePoly, replaceOnePoly, set_color, set_isPolyClosed", "src/vw/Geometry/geomUtils.h: eraseMarkedElements"]}
{"id": "C125", "title": "Bounding boxes and closest vertices, edges and annotations", "statement": "bdBox is the smallest box around all vertices, bdBoxes those of the single polygons, transforming around the centre keeps the centre as a fixed point. findClosestPolyVertex returns a vertex of minimal distance with its polygon and index, the last such one; findClosestPolyEdge an edge and a point on it of minimal distance; findClosestAnnotation the closest annotation. Without any, index -1 and the largest number are returned.", "quantifier": "all dPoly objects that hold a list of polygons, all query points", "why_tests_cant": "Minima over arbitrarily many polygons and vertices, ties included.", "anchors": ["src/vw/Geometry/dPoly.cc: bdBox, bdBoxes, bdBoxCenter, applyTransformAroundBdBoxCenter, findClosestPolyVertex, findClosestPolyEdge, findClosestAnnotation"]}
{"id": "C126", "title": "Sorting polygons by size", "statement": "sortFromLargestToSmallest permutes the polygons together with closedness, colors and layers, so that no polygon is larger than an earlier one, in the order of width, height and area of the bounding boxes, whatever order std::sort gives to ties; hence no polygon is inside of a later one. sortBySizeAndMaybeAddBigContainingRect adds a rectangle, which comes first and contains all vertices and the window, exactly if the largest polygon has negative area.", "quantifier": "all dPoly objects that hold a list of polygons, all windows, all orders of ties", "why_tests_cant": "All permutations, sizes and ties; the polygons have different numbers of vertices.", "anchors": ["src/vw/Geometry/dPoly.cc: sortFromLargestToSmallest, sortBySizeAndMaybeAddBigContainingRect"]}
{"id": "C127", "title": "Clipping a set of polygons; polygons that intersect a box", "statement": "clipPoly replaces every polygon, in order, by pieces that are not empty, have its attributes and are in the box; the pieces of a closed polygon wind around each point inside of the box as the polygon does and around no point outside; a polygon inside of the box is unchanged; of a polygon beyond a side of the box nothing is left; of a point cloud the points in the box remain; the annotations in the box remain. markPolysIntersectingBox marks a single point exactly if it is in the box, every polygon inside of the box, every closed polygon that winds around a point inside of the box, and no polygon beyond a side of the box; erasePolysIntersectingBox removes exactly the marked polygons.", "quantifier": "all dPoly objects that hold a list of polygons, all boxes, all points, all orders of ties", "why_tests_cant": "All positions of polygons relative to the box, any number of pieces.", "anchors": ["src/vw/Geometry/dPoly.cc: clipPoly, markPolysIntersectingBox, erasePolysIntersectingBox", "src/vw/Geometry/cutPoly.cc: cutPoly, cutPolyLine"]}
{"id": "C128", "title": "Polygons written to a file and read back", "statement": "Polygons written by writePoly with the separator NEXT and read by readPoly come back in order with the same vertices, colors, layers and annotations, and whether a polygon is closed is read off its vertices; a point cloud comes back as one polygon per point.", "quantifier": "all dPoly objects that hold a list of polygons that are not empty", "why_tests_cant": "Any number of polygons, vertices and annotations, interleaved in the file.", "anchors": ["src/vw/Geometry/dPoly.cc: writePoly, readPoly", "src/vw/Geometry/geomUtils.cc: searchForLayer"]}
{"id": "C129", "title": "Distances between descriptors of interest points, and constraints on matches", "statement": "The metrics on descriptors return the square of the Euclidean distance and the number of bits that differ; if a limit is given and the distance is above it, they may return less than the distance, but something above the limit, so that comparing with the limit gives the right answer. The constraints accept a pair exactly if the ratio of the scales and the difference of the orientations, as an angle, or the differences of the positions are in the ranges given.", "quantifier": "all descriptors of any length, all limits, all positive scales, all orientations in one turn, all positions", "why_tests_cant": "Early exits, groups of eight, four and one bytes, wrapping of angles: the length and the place at which the limit is passed are arbitrary.", "anchors": ["src/vw/InterestPoint/Matcher.cc: L2NormMetric, HammingMetric, ScaleOrientationConstraint, PositionConstraint", "src/vw/Math/Functions.h: hamming_distance"]}
{"id": "C130", "title": "Matching of interest points", "statement": "The matcher gives for each point of the first list the index of its match in the second list or none: the nearest point found, if the constraint accepts it and it is closer than the second nearest by the factor of the threshold; the matched lists pair exactly the points that have a match with it, in order. The simple matcher finds the first point of least distance of the same polarity, if its distance is at most the threshold times that of every other.", "quantifier": "all lists of points, all results of the nearest neighbour search with valid indices, all metrics, constraints and thresholds", "why_tests_cant": "Any number of points and any answers of the approximate search; ties and points without match anywhere.", "anchors": ["src/vw/InterestPoint/Matcher.h: InterestPointMatcher::operator() (both), check_constraint, InterestPointMatcherSimple::operator()"]}
{"id": "C131", "title": "Duplicates, order and selection of interest points", "statement": "remove_duplicates keeps, in order, pairs of which no two share a position in either image, and drops a pair only if it shares one with a later pair that is kept; a second call changes nothing. Sorting puts the points found by threads in arbitrary order into a unique order. crop selects the points in the box, remove_ip_near_nodata removes exactly the points near the border or near no data, pick_pair_subset keeps the given number of pairs and keeps partners together.", "quantifier": "all lists of points, boxes, images, radii, shuffles and sorting algorithms", "why_tests_cant": "Any number of points with any coincidences of positions; all permutations.", "anchors": ["src/vw/InterestPoint/Matcher.cc: remove_duplicates", "src/vw/InterestPoint/InterestPoint.cc: InterestPointLessThan", "src/vw/InterestPoint/Matcher.h: sort_interest_points", "src/vw/InterestPoint/InterestPoint.h: crop", "src/vw/InterestPoint/InterestPointUtils.h: remove_ip_near_nodata, pick_pair_subset", "src/vw/Math/RandomSet.cc: pick_random_subset, pick_random_indices_in_range"]}
{"id": "C132", "title": "Quantiles of a stream of samples", "statement": "A CDFAccumulator that is fed samples, merged when the buffer is full or by update, loses no sample, reads nothing outside of its arrays, and its stored quantiles do not decrease. quantile then does not decrease with its argument, is between the minimum and the maximum of the samples merged, which are its values at 0 and 1; and at the stored probabilities the quantiles of the first batch are exact.", "quantifier": "all histories of samples and updates, all sizes of the buffer, all numbers of quantiles, all arguments", "why_tests_cant": "The merge walks two sequences with an endless loop that must stop by the values themselves; batches follow each other without bound.", "anchors": ["src/vw/Math/CDFAccumulator.cc: resize, update, operator(), quantile"]}
{"id": "C133", "title": "Filling of holes in an image", "statement": "FillHoles leaves every valid pixel unchanged, makes a pixel that is not valid valid exactly if it has valid pixels on both sides in its row, or on both sides in its column, at most (length + 1) / 2 away, and gives it a value between the least and the greatest valid value; with interpolation and no smoothing a plane is continued exactly. The result does not depend on the tiles in which the image is computed.", "quantifier": "all images, lengths of a hole, modes, numbers of smoothing passes, tiles and pixels", "why_tests_cant": "The result at a pixel depends on neighbours beyond its tile; tests compare a few images as a whole.", "anchors": ["src/vw/Image/FillHoles.h: FillHoles, prerasterize"]}
{"id": "C134", "title": "Growing a bounding sphere", "statement": "Growing a sphere to a point or to another sphere gives the smallest sphere that contains all points of the sphere before and the point, or all points of the other sphere; an empty sphere becomes the point or the other sphere; a sphere that already contains it is unchanged. So a sphere grown from nothing by points contains them all.", "quantifier": "all spheres of any dimension with a radius that is not negative, all points, all sequences of points", "why_tests_cant": "That every point of a ball is in another ball is a statement about infinitely many points, in any dimension.", "anchors": ["src/vw/Geometry/Sphere.h: SphereBase::grow"]}
{"id": "C135", "title": "Containment, intersection and crop of spheres", "statement": "contains holds for two spheres exactly if all points of the second are in the first; intersects exactly if they have a common point; crop gives an empty sphere exactly if they have none, else a sphere that contains all common points and is not larger than either; adding a vector, scaling and expanding act on the points.", "quantifier": "all spheres of any dimension, all points, vectors, positive factors and distances", "why_tests_cant": "Quantifies over all points of balls in any dimension.", "anchors": ["src/vw/Geometry/Sphere.h: SphereBase::contains, intersects, crop, expand, contract, operators", "src/vw/Geometry/Sphere.h: Sphere (conversion)"]}
{"id": "C136", "title": "Masking blobs out of an image", "statement": "An ErodeView made from blobs, or that absorbs more blobs later, masks exactly the pixels of those blobs and gives the pixels of the image elsewhere, whatever the order of the blobs and however they overlap, touch or repeat each other; it throws exactly if a blob has a row outside of the image. Rasterized in tiles it gives the same pixels.", "quantifier": "all images, all lists of blobs with any runs, all histories of calls, also those that threw, all pixels and tiles", "why_tests_cant": "The mask is a set of segments per row, merged step by step; any history of overlapping and touching segments must keep the search by the next end correct.", "anchors": ["src/vw/Image/ErodeView.h: ErodeView, operator(), absorb, prerasterize"]}
{"id": "C137", "title": "Patches over an image", "statement": "A SparseCompositeView that has absorbed patches gives at each place the pixel of the patch with a valid pixel there, and elsewhere the pixel of the image, whatever the order of the patches; a patch with a valid pixel where there is one already is refused by an exception; no absorb changes a pixel stored before.", "quantifier": "all images, all patches, all sequences of patches at any offsets, all pixels", "why_tests_cant": "The strips of a row are merged or inserted depending on what is already there; every order of patches is a different history.", "anchors": ["src/vw/Image/SparseView.h: SparseCompositeView, operator(), absorb"]}
{"id": "C138", "title": "Pixels without data filled with averages", "statement": "fill_nodata_with_avg keeps valid pixels; a pixel without data becomes the mean of the valid pixels of the square of kernel_size columns and rows around it that are in the image, and stays without data exactly when there is none; filled values are between the least and the greatest of those; the result does not depend on how the image is divided into tiles; only odd positive kernel sizes are accepted.", "quantifier": "all masked images, all odd kernel sizes, all tiles, all pixels, whatever is outside of the copied part of a tile", "why_tests_cant": "The window is clipped at all edges and the margin of a tile must be large enough for every position of a pixel in every tile.", "anchors": ["src/vw/Image/InpaintView.h: FillNoDataWithAvg, operator(), prerasterize"]}
{"id": "C139", "title": "Pixels without data filled from a search radius", "statement": "fillNodataWithSearchRadius keeps valid pixels; a pixel without data is filled in a pass exactly when there is a valid pixel within the radius and the valid ones are at least the given percentage of the pixels of the image within the radius; its value is then the mean weighted by 1/(1 + d^power) of the distances; over any number of passes filled pixels stay as they are, all values are between the least and the greatest of the input, and no data gets farther than the number of passes times the radius rounded up.", "quantifier": "all masked images, radii, powers, percentages and numbers of passes, all pixels", "why_tests_cant": "Each pass depends on all pixels within the radius, clipped at the edges; passes feed each other.", "anchors": ["src/vw/Image/InpaintView.cc: fillNodataWithSearchRadius"]}
{"id": "C140", "title": "Filling of blobs", "statement": "Rasterizing inpaint() of an image with an index of disjoint blobs, for any tile, changes no pixel outside of the blobs; each blob that does not touch the edge of the image is filled: with the default value, or with values between the least and the greatest of the pixels around the blob; the result of a pixel does not depend on the tile.", "quantifier": "all images, all sets of disjoint blobs of any shape, all tiles, all pixels, whatever is outside of the part copied for a tile", "why_tests_cant": "The part to copy depends on the blobs that reach into the tile; the patches of several blobs meet in the rows of one sparse view; smoothing runs a number of rounds that depends on the shape of the blob.", "anchors": ["src/vw/Image/InpaintView.h: InpaintView, prerasterize", "src/vw/Image/InpaintView.h: InpaintTask"]}
{"id": "C141", "title": "Disparities refined by a parabola", "statement": "For each pixel with a disparity, parabola_subpixel fits a surface of second degree to the costs of the disparity and its eight neighbours by least squares, and moves the disparity to the lowest point of the surface, by less than a pixel; if the costs are those of such a surface, the lowest point is found exactly; equal costs leave the disparity as it is; a pixel without a disparity stays so. The peak of ParabolaFit2d is at most half a pixel away.", "quantifier": "all costs, all disparities, all ranges of a zone, all pixels", "why_tests_cant": "The nine costs are collected from loops over a range that differs from zone to zone; the fit uses a table of 54 numbers; all costs are reals.", "anchors": ["src/vw/Stereo/ParabolaSubpixelView.cc: evaluate", "src/vw/Stereo/ParabolaSubpixelView.h: ParabolaSubpixelView", "src/vw/Stereo/SGMAssist.h: ParabolaFit2d"]}
{"id": "C142", "title": "Moving count of valid pixels", "statement": "After any sequence of next_pixel and advance_row, the next next_pixel of an IterativeMaskBoxCounter returns the part of valid pixels of the box at the next column (column 0 at the start of a row).", "quantifier": "all masks, all box sizes, all histories of calls", "why_tests_cant": "The counter keeps a queue of column sums that is updated from call to call.", "anchors": ["src/vw/Stereo/SGMAssist.h: IterativeMaskBoxCounter"]}
{"id": "C143", "title": "Extent of a mosaic", "statement": "After any images have been inserted at any places and prepare has been called, the mosaic has as many columns and rows as the least box that covers the images, every image lies inside it, and the images keep their places relative to each other; with a box given to prepare, the mosaic is that box. sparse_check says yes for a box iff it meets an image that says yes for its part of the box. Calling prepare again changes nothing.", "quantifier": "all lists of images with at least one pixel, all places, also negative ones", "why_tests_cant": "Any number of images at any places, in any order.", "anchors": ["src/vw/Mosaic/ImageComposite.h: insert", "src/vw/Mosaic/ImageComposite.h: prepare", "src/vw/Mosaic/ImageComposite.h: sparse_check", "src/vw/Mosaic/ImageComposite.h: cols, rows, bbox"]}
{"id": "C144", "title": "Masks of a mosaic", "statement": "Each place of the mosaic where some source is not transparent belongs to the mask of exactly one source: of the sources that cover the place, one that is farthest, in steps, from the next transparent pixel or from the outside of its image; among several, the one inserted last. Places where all sources are transparent belong to no mask.", "quantifier": "all numbers, places and sizes of sources, all alphas, all places of the mosaic", "why_tests_cant": "Every pair of sources is compared in a loop that overwrites the mask it compares with.", "anchors": ["src/vw/Mosaic/ImageComposite.h: generate_masks", "src/vw/Mosaic/ImageComposite.h: GrassfireGenerator", "src/vw/Image/Algorithms.h: threshold"]}
{"id": "C145", "title": "Mosaic in draft mode", "statement": "In draft mode a pixel of any patch, or got by its coordinates, is made of the pixels of the sources that cover its place, in the order of insertion, on black: without alpha the last one replaces the others; with alpha each is laid over what is there. So patches agree where they overlap, an opaque pixel hides those before, a black and transparent one changes nothing, the alpha stays between 0 and 1 and is at least that of every source; a patch for which sparse_check says no is black.", "quantifier": "all sources, all patches, all pixels", "why_tests_cant": "Sources, patches and their overlaps are cropped against each other in three coordinate systems.", "anchors": ["src/vw/Mosaic/ImageComposite.h: draft_patch", "src/vw/Mosaic/ImageComposite.h: addto", "src/vw/Mosaic/ImageComposite.h: operator()"]}
{"id": "C146", "title": "Sources of a blended patch", "statement": "When a patch of the mosaic is blended, the levels of its pyramid hold all pixels needed to enlarge each to the one below, and every source that has a part in a pixel of a level of the patch is taken into account, so that a blended pixel does not depend on the patch that was asked for. A level of a source is the level below smoothed, at half the coordinates. The patch is trimmed to the greatest alpha of the sources.", "quantifier": "all patches with coordinates that are not negative, all numbers of levels, all boxes of sources", "why_tests_cant": "The boxes are rounded at every level, for any number of levels.", "anchors": ["src/vw/Mosaic/ImageComposite.h: blend_patch", "src/vw/Mosaic/ImageComposite.h: reduce", "src/vw/Mosaic/ImageComposite.h: PyramidGenerator::generate"]}
{"id": "C147", "title": "Levels of a pyramid on disk", "statement": "For every image, every factor of at least 2 and every limit of at least 4 pixels the pyramid is made in finitely many steps: level 0 is the image, the scales are the powers of the factor, each level has at least one pixel and, up to less than one pixel, the size of the image divided by its scale, every level but the last has more pixels than the limit, and the last one has not. Other factors and limits are refused. A file that exists is used for a level exactly if it opens, is not older than the image and has the right size.", "quantifier": "all image sizes, factors, limits, states of the files", "why_tests_cant": "The number of levels depends on the size; sizes are rounded at every level.", "anchors": ["src/vw/Mosaic/DiskImagePyramid.h: DiskImagePyramid", "src/vw/Mosaic/DiskImagePyramid.h: overwrite_if_no_good", "src/vw/Image/AntiAliasing.h: resample_aa"]}
{"id": "C148", "title": "Clip of a pyramid at a scale", "statement": "For a scale of at least 1 and a region, get_image_clip uses the coarsest level whose scale is not above the given one, returns that scale and the pixels of that level that stand for the part of the region in the image; all pixels of that part are covered.", "quantifier": "all pyramids, scales, regions (also partly or wholly outside the image)", "why_tests_cant": "Scales are compared as reals, boxes are divided with rounding and cropped twice.", "anchors": ["src/vw/Mosaic/DiskImagePyramid.h: pyramidLevel", "src/vw/Mosaic/DiskImagePyramid.h: get_image_clip"]}
{"id": "C149", "title": "Approximate bounds of an image", "statement": "The bounds computed for display come from at most 250 by 250 pixels at regular steps, without those that are not numbers, are nodata or are outside of the valid range. The lower bound is below the upper one; at most 1% of the values (and a half) lie below the lower one, as many above the upper one; the bounds do not exceed the values, but where they would be equal they are one off on both sides. Without values the bounds are those of all numbers.", "quantifier": "all images, nodata values, valid ranges", "why_tests_cant": "Values are real numbers in any order and number; quantiles are rounded.", "anchors": ["src/vw/Mosaic/DiskImagePyramid.h: approx_bounds_nocache", "src/vw/Math/Statistics.h: find_outlier_brackets"]}
{"id": "C150", "title": "Census codes of a pixel", "statement": "For every image and pixel the census codes (3x3, 5x5, 7x7, 9x9, binary and ternary) fit in their types and have, for each pixel of the documented pattern, one bit that says whether it is brighter than the centre, or two bits that say whether it is darker by more than the threshold (00), brighter by more than it (11) or neither (01). The patterns have no pixel twice and not the centre, lie in the window and are symmetric. A change of brightness that keeps the order of the values does not change a binary code.", "quantifier": "all images, pixels, thresholds", "why_tests_cant": "A code depends on up to 49 values; the bits are added in loops with wrap-around.", "anchors": ["src/vw/Image/CensusTransform.h: get_census_value_3x3", "src/vw/Image/CensusTransform.h: get_census_value_9x9", "src/vw/Image/CensusTransform.h: get_census_value_ternary_7x7"]}
{"id": "C151", "title": "Matching costs from census codes", "statement": "For a kernel of 3, 5, 7 or 9 the cost of a pixel and a disparity is the number of pixels of the pattern whose comparison with the centre differs in the two images (binary), or the sum of the differences of their levels (ternary), whenever both windows lie in the images. It stands in the cost buffer where the matcher looks for it. Other kernels are refused.", "quantifier": "all images, pixels, disparities, search ranges, thresholds", "why_tests_cant": "Costs depend on whole windows of two images and on running sums of the sizes of all ranges.", "anchors": ["src/vw/Stereo/SGM.cc: get_hamming_distance_costs", "src/vw/Stereo/SGM.cc: SemiGlobalMatcher::compute_disparity_costs", "src/vw/Stereo/SGM.cc: SemiGlobalMatcher::fill_costs_census5x5", "src/vw/Math/Functions.h: hamming_distance"]}
{"id": "C152", "title": "Threshold of Otsu", "statement": "For every image with valid pixels otsu_threshold splits the 256 levels between the least and the greatest valid value so that the variance left within the two classes is least, and returns the level at the mean of all best places to split. If not all values are equal, the threshold is at least the least value and below the greatest one. Without valid pixels it is 0.", "quantifier": "all images, valid or not pixels", "why_tests_cant": "The criterion is a minimum over all splits of sums over all pixels.", "anchors": ["src/vw/Image/ImageThresh.h: otsu_threshold", "src/vw/Image/ImageThresh.h: histogram", "src/vw/Image/Statistics.h: find_image_min_max", "src/vw/Math/Statistics.h: Histogram"]}
{"id": "C153", "title": "Threshold of Otsu from samples", "statement": "The second otsu_threshold uses rows and columns spread from the first to the last and gives, with 256 bins and as many samples as pixels, the same result as the first one.", "quantifier": "all images, numbers of samples, numbers of bins", "why_tests_cant": "Equality must hold for all images; running means are updated bin by bin.", "anchors": ["src/vw/Image/ImageThresh.h: otsu_threshold"]}
{"id": "C154", "title": "Conversion of images to 8 bits", "statement": "u8_convert maps the least value to 0, the greatest to 255 and those between in proportion, cut to integers, and keeps the order. percentile_scale_convert does the same between the upper ends of the bins at two percentiles, values outside become 0 and 255.", "quantifier": "all images of floating-point pixels, percentiles, numbers of bins", "why_tests_cant": "The bounds depend on all pixels of the image.", "anchors": ["src/vw/Image/ImageThresh.h: u8_convert", "src/vw/Image/ImageThresh.h: percentile_scale_convert", "src/vw/Image/Algorithms.h: clamp", "src/vw/Image/Algorithms.h: normalize"]}
{"id": "C155", "title": "Peaks of an interest image", "statement": "For every interest image the spatial find_peaks reads no pixel outside of the image and appends, row by row and from left to right, exactly the pixels off the border that are greater (or less, or either, as asked) than all of their eight neighbours, each once, with scale 1 and their interest. Two maxima are never neighbours; flat images have no peaks.", "quantifier": "all image sizes, interest values, kinds of peaks, lists before the call", "why_tests_cant": "The exact set of peaks for all images of all sizes cannot be tested.", "anchors": ["src/vw/InterestPoint/Extrema.h: find_peaks", "src/vw/InterestPoint/Extrema.h: is_local_max", "src/vw/InterestPoint/Extrema.h: is_local_min", "src/vw/InterestPoint/Extrema.h: is_local_minmax", "src/vw/InterestPoint/Extrema.h: is_extremum", "src/vw/InterestPoint/Extrema.h: IsSpatialExtremum"]}
{"id": "C156", "title": "Peaks in a scale space", "statement": "find_peaks on an octave throws exactly for no planes or planes of different sizes; else it finds exactly the inner pixels of the inner planes that are extrema in space and scale, with the scale of their plane. In every octave every plane has the blur listed for it, the scale of a plane is proportional to its blur, and from a scale the plane that matches most closely is found.", "quantifier": "all numbers and sizes of planes, values, kinds of peaks, scales in an octave, numbers of octaves", "why_tests_cant": "Holds after any number of octaves for any number of scales.", "anchors": ["src/vw/InterestPoint/Extrema.h: find_peaks", "src/vw/InterestPoint/Extrema.h: is_local_max", "src/vw/InterestPoint/Extrema.h: is_local_min", "src/vw/InterestPoint/Extrema.h: IsScaleExtremum", "src/vw/InterestPoint/ImageOctave.h: ImageOctave"]}
{"id": "C157", "title": "Deviation filter", "statement": "stddev_filter_view gives at every pixel, in whatever tile it is computed, the standard deviation of the valid pixels of the window centred on it.", "quantifier": "all images, window sizes, tiles and pixels", "why_tests_cant": "The running sums are updated along each row; the result must not depend on where the tile starts.", "anchors": ["src/vw/Image/WindowAlgorithms.h: StdDevView", "src/vw/Image/WindowAlgorithms.h: stddev_filter_view", "src/vw/Math/Functors.h: StdDevSlidingFunctor"]}
{"id": "C158", "title": "Median filter", "statement": "median_filter_view gives at every pixel the median of the valid pixels of the window about it if at least nine tenths (rounded down) are valid, else an invalid pixel, in whatever tile and after whatever other pixels it is computed.", "quantifier": "all images, window sizes, tiles, pixels and histories of the functor", "why_tests_cant": "The functor keeps a store between calls which must not show in the results.", "anchors": ["src/vw/Image/WindowAlgorithms.h: WindowFunctionView", "src/vw/Image/WindowAlgorithms.h: WindowMedianFunctor", "src/vw/Image/WindowAlgorithms.h: median_filter_view"]}
{"id": "C159", "title": "Bounded distance function", "statement": "bounded_dist throws exactly for a negative bound; else every pixel that is zero or at the edge of the image gets 0, and every other pixel gets the Euclidean distance to the nearest such pixel, cut at the bound.", "quantifier": "all image sizes, images and bounds", "why_tests_cant": "Distances are painted from boundary pixels only and within squares; that no nearer pixel is missed must hold for every image.", "anchors": ["src/vw/Image/DistanceFunction.cc: bounded_dist"]}
{"id": "C160", "title": "Bounded signed distance function", "statement": "bounded_signed_dist throws exactly for a negative bound; else a valid pixel gets the distance to the nearest invalid pixel, an invalid one minus the distance to the nearest invalid pixel with a valid neighbour, cut at the bound: boundary pixels are 0, valid pixels positive, the others negative.", "quantifier": "all image sizes, masks and bounds", "why_tests_cant": "As C159, with the sign of each pixel for every mask.", "anchors": ["src/vw/Image/DistanceFunction.h: bounded_signed_dist"]}
{"id": "C161", "title": "Catmull-Rom curves", "statement": "A Catmull-Rom curve is built exactly from at least four points, neighbours apart, with a parameter in [0, 1]; it can be evaluated for all parameters from 0 to the greatest, passes through each control point at its parameter, is continuously differentiable, and prime is its derivative.", "quantifier": "all dimensions, numbers and positions of points, exponents and parameters", "why_tests_cant": "A statement on a continuum of parameters and all control points.", "anchors": ["src/vw/Math/Catmull_Rom_spline.h: catmull_rom", "src/vw/Math/Catmull_Rom_spline.h: catmull_rom::operator()", "src/vw/Math/Catmull_Rom_spline.h: catmull_rom::prime", "src/vw/Math/Catmull_Rom_spline.h: alpha_distance"]}
{"id": "C162", "title": "Subpixel fit of peaks", "statement": "fit_peak_1D gives the vertex and the leading coefficient of the parabola through three samples. fit_peak keeps every strict extremum of row and column (and planes) off the border, moves it by less than half a pixel (half a plane) to the vertices and changes nothing else; a point it rejects is unchanged, and no position is NaN.", "quantifier": "all samples, images, stacks of planes and points", "why_tests_cant": "Holds for all real samples; a bound on the shift of every possible peak.", "anchors": ["src/vw/InterestPoint/Localize.h: fit_peak_1D", "src/vw/InterestPoint/Localize.h: fit_peak"]}
{"id": "C163", "title": "Histograms of orientations", "statement": "weighted_histogram puts the weight of each value within the range in the bin nearest to it and no other; an orientation is shared linearly by the two nearest bins of the circle; non_max_suppression keeps exactly the local maxima; filter_1d is the (circular) correlation, and the circular one multiplies the total by that of the kernel; find_weighted_histogram_mode gives the greatest bin first and then the other local maxima above 0.8 of it, each once, at most five.", "quantifier": "all sizes, values, weights, orientations, kernels and histograms", "why_tests_cant": "All sizes of vectors and kernels, all positions of maxima and ties, circular ends.", "anchors": ["src/vw/InterestPoint/WeightedHistogram.h: weighted_histogram", "src/vw/InterestPoint/WeightedHistogram.h: orientation_interpolate", "src/vw/InterestPoint/WeightedHistogram.h: orientation_histogram", "src/vw/InterestPoint/WeightedHistogram.h: non_max_suppression", "src/vw/InterestPoint/WeightedHistogram.h: filter_1d", "src/vw/InterestPoint/WeightedHistogram.h: find_weighted_histogram_mode"]}
{"id": "C164", "title": "Orthonormal bases and plane tangents", "statement": "formBasis throws exactly for the zero vector and else gives a right-handed orthonormal basis whose third vector points along the given one. computePlaneTangents gives, for every unit normal, two vectors of the given length perpendicular to it and to each other.", "quantifier": "all vectors, normals and lengths", "why_tests_cant": "A statement on all directions of space, including the ones on the borders between the cases.", "anchors": ["src/vw/Math/VectorUtils.cc: formBasis", "src/vw/Math/VectorUtils.cc: computePlaneTangents"]}
{"id": "C165", "title": "Rounding to integers with clamping", "statement": "round_and_clamp gives the integer nearest to the value (halves away from zero) if the type has it, else the limit of the type on its side.", "quantifier": "all finite values, all integer types", "why_tests_cant": "A statement on all real numbers.", "anchors": ["src/vw/Image/RoundAndClamp.h: round_and_clamp"]}
{"id": "C166", "title": "Box filters and the interest of OBALoG", "statement": "A box filter of centred boxes on an integral image reads nothing outside of it and gives at each pixel the sum of weight times pixels over its boxes, 0 within half the largest side of the border. The ten filters of OBALoG are of this kind; their interest is symmetric in x and y and almost 0 on flat images.", "quantifier": "all images, filters of centred boxes, pixels and scales", "why_tests_cant": "All positions near the border and all images cannot be tested.", "anchors": ["src/vw/InterestPoint/BoxFilter.h: apply_box_filter_at_point", "src/vw/InterestPoint/BoxFilter.h: BoxFilterView", "src/vw/InterestPoint/BoxFilter.h: box_filter", "src/vw/InterestPoint/IntegralInterestOperator.h: OBALoGInterestOperator", "src/vw/InterestPoint/IntegralInterestOperator.cc: SCALE_BOX_WIDTH"]}
{"id": "C167", "title": "Error of projecting a point in a linescan camera", "statement": "findPerpVecs throws exactly if the length of the vector differs from 1 by more than 1e-5, else it gives two unit vectors perpendicular to the vector and to each other, with no division by 0. The error the solver minimises is zero at a pixel exactly if the pixel looks at the ground point.", "quantifier": "all directions, cameras, ground points and pixels on the side of the guess", "why_tests_cant": "A statement on all directions of space, including those on the borders between the cases, and on all cameras.", "anchors": ["src/vw/Camera/LinescanErr.cc: findPerpVecs", "src/vw/Camera/LinescanErr.cc: LinescanErr::operator()"]}
{"id": "C168", "title": "Demosaicing of Bayer images", "statement": "inverse_bayer_filter leaves at each pixel the recorded colour as it is and fills in the two others by averages of the nearest recorded values; a uniform scene is reproduced.", "quantifier": "all images and pixels", "why_tests_cant": "All images, positions and parities.", "anchors": ["src/vw/Camera/BayerFilter.h: inverse_bayer_filter"]}
{"id": "C169", "title": "Matrices in text files and as images", "statement": "A matrix written with write_matrix_as_txt is read back by read_matrix_as_txt as it was. A file is read exactly if it has a line and all lines have equally many numbers. A matrix passed through write_matrix and read_matrix keeps its size and entries.", "quantifier": "all matrices, all files, all number formats that read back what they print", "why_tests_cant": "A statement on all matrices and all texts.", "anchors": ["src/vw/FileIO/MatrixIO.cc: write_matrix_as_txt", "src/vw/FileIO/MatrixIO.cc: read_matrix_as_txt", "src/vw/FileIO/MatrixIO.h: write_matrix", "src/vw/FileIO/MatrixIO.h: read_matrix"]}
{"id": "C170", "title": "Paths and lists of files", "statement": "make_file_relative_to_dir gives a path that leads from the directory to the file. prefix_from_filename removes the extension. get_files_with_prefix finds exactly the regular files that start with the prefix. get_files_with_ext gives the files with the extension in order and, if asked, removes exactly these from the list.", "quantifier": "all paths, current directories, file systems and lists", "why_tests_cant": "All paths, file systems and lists.", "anchors": ["src/vw/FileIO/FileUtils.cc: make_file_relative_to_dir", "src/vw/FileIO/FileUtils.cc: prefix_from_filename", "src/vw/FileIO/FileUtils.cc: get_folder", "src/vw/FileIO/FileUtils.cc: get_files_in_folder", "src/vw/FileIO/FileUtils.cc: get_files_with_prefix", "src/vw/FileIO/FileTypes.cc: get_files_with_ext"]}
{"id": "C171", "title": "Two-threshold fill", "statement": "two_threshold_fill marks exactly the pixels connected, through pixels above the low threshold, to one above the high threshold; the result does not depend on how the image is cut into blocks.", "quantifier": "all images, thresholds, expansions and blocks", "why_tests_cant": "A statement on all images and all ways to cut them.", "anchors": ["src/vw/Image/ImageSurface.h: TwoThresholdFill", "src/vw/Image/ImageSurface.h: two_threshold_fill"]}
{"id": "C172", "title": "Normals and shading of surfaces", "statement": "compute_normals gives at each pixel a unit vector at right angles to the steps to the right and lower neighbour, invalid exactly if one of the three pixels is; on a plane it is the normal of the plane. dot_prod with a light direction gives shades between -1 and 1, 1 exactly for normals that point at the light.", "quantifier": "all height images, scales other than 0, light vectors and pixels", "why_tests_cant": "A statement on all surfaces and directions.", "anchors": ["src/vw/Image/ImageSurface.h: ComputeNormalsFunc", "src/vw/Image/ImageSurface.h: compute_normals", "src/vw/Image/ImageSurface.h: DotProdFunc", "src/vw/Cartography/Hillshade.cc: do_hillshade"]}
{"id": "C173", "title": "Filling the colours of transparent pixels", "statement": "mean_fill_transparent leaves pixels that are not transparent as they are and gives transparent ones the mean of their eight neighbours weighted with their alphas, within the range of these; alpha is never changed.", "quantifier": "all images and pixels", "why_tests_cant": "A statement on all images, including at the border.", "anchors": ["src/vw/Image/ImageSurface.h: MeanFillTransparent", "src/vw/Image/ImageSurface.h: mean_fill_transparent"]}
{"id": "C174", "title": "Colour maps", "statement": "A colour map gives every value, moved into [0, 1], a colour: that of the entry at a key, between two keys the rounded colour on the straight line between theirs, never outside of them. A file of heights gives a map in which the least height is at 0 and the greatest at 1, and each line of the file counts.", "quantifier": "all maps, values and files", "why_tests_cant": "A statement on all values and all maps.", "anchors": ["src/vw/Image/Colormap.cc: Colormap::operator()", "src/vw/Image/Colormap.cc: populate_lut_map", "src/vw/Image/Colormap.cc: parseColorStyle"]}
{"id": "C175", "title": "The box of the data of an image", "statement": "nonzero_data_bounding_box gives the smallest box that holds all pixels that are not zero, and the empty box if there are none. is_opaque and is_transparent of an image with alpha hold exactly if all of its pixels are opaque or transparent.", "quantifier": "all images", "why_tests_cant": "A statement on all images.", "anchors": ["src/vw/Image/ImageOpacity.h: nonzero_data_bounding_box", "src/vw/Image/ImageOpacity.h: is_opaque", "src/vw/Image/ImageOpacity.h: is_transparent"]}
{"id": "C176", "title": "Relative orientation of two sets of vectors", "statement": "relative_orientation gives a unit quaternion q for which sum(|v2 - q.rotate(v1)|^2) is least among all unit quaternions; if a rotation takes each v1 to its v2, so does the one given back.", "quantifier": "all lists of pairs of vectors", "why_tests_cant": "A least value over a continuum of rotations, for all data.", "anchors": ["src/vw/Math/PoseEstimation.h: relative_orientation"]}
{"id": "C177", "title": "The comparison of two datums", "statement": "checkDatumConsistency is silent exactly if both semi-axes agree to less than 10 m, fails exactly if one differs by 200 km or more while no axis is below 1000 km and more than a warning is asked for, and else warns; the order of the datums does not matter.", "quantifier": "all pairs of datums", "why_tests_cant": "A statement on all pairs of numbers.", "anchors": ["src/vw/Cartography/DatumUtils.cc: checkDatumConsistency"]}
