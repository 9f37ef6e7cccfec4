C01|heap of nodes with `prev/next` ids and the three list heads; validate/invalidate/remove/deprioritize pointer by pointer. Representation predicate (heap stands for two lists), each pointer operation refines a list operation, induction over histories
C02|sequential cache machine (lines with size, value, pins, wedged flag; eviction loop of allocate). Accounting invariant by induction over histories; a throwing generator is the counterexample
C03|same machine; post-condition of the eviction loop by induction on its steps
C04|same machine; pinned lines are never chosen by the eviction loop, invariant over histories
C05|same machine; invariant: loaded value = value of the generator
C06|same machine; list order = order of generation, invariant; witness against LRU
C07|same machine; loop post-condition
C08|interleavings of CacheLine::value of n threads at lock-operation granularity; concrete schedule against, invariant for schedules without overlapping misses
C09|handle/lock counter machine; invariant for disciplined clients, witnesses otherwise
C10|labelled transition system of FifoWorkQueue/WorkQueue (add, notify, start, run, finish, fetch, join, kill); inductive invariant over reachable states
C11|same system; multiset invariant queued + running + done = added
C12|same system; order invariant; witness for two threads
C13|same system; safety invariant, and liveness by a measure that each step of any schedule decreases
C14|same system; reachable deadlocked state; measure when the queue is empty
C15|OrderedWorkQueue system: invariant on the next expected index
C16|mutex-protected queue with a set of waiting threads; invariant popped ++ queue = pushed
C17|rule lists; direct, with a specification by the last matching rule
C18|wildcard matching on `List Char`; equivalence with the inductive meaning of patterns
C19|n-dimensional boxes `Fin n → α` over any linear order; membership characterisations
C20|same; least upper bound by induction over points; witnesses for sentinel values
C21|same; wrap-around instance for unsigned coordinates refutes
C22|same over ordered rings and fields; set equalities
C23|same over fields with floor
C24|cursor state machine of the block iterator and BlockProcessor, schedules as arbitrary distributions of calls to threads; k-th box characterised, bijection with grid cells
C25|integer arithmetic of the block index maps
C26|composition of the block cache with the cache machine, pixel-level interleavings; invariant over histories
C27|index maps of each edge extension transcribed with C++ division; case analysis over integers
C28|`source_bbox` transcribed; integer case analysis
C29|disjoint sets as a heap with parent pointers and ranks; invariant: the forest represents the equivalence generated by the history
C30|Kruskal loop over the sorted edges; exchange argument for minimality
C31|Bresenham iterator state machine; closed form of the error term by induction
C32|row-major fill loop over a field; loop invariant (prefix sums)
C33|rational longitudes and latitudes; case analysis against the standard table
C34|quad tree generator: branch function on boxes, recursion over levels, paths, tile contents; induction over depth
C35|programs over variables with shared/owned storage refine programs over lists; simulation
C36|character list functions; induction over the string
C37|order statistics over lists; counting specification
C38|integer and field arithmetic
C39|tree of monitors; induction over depth and report sequences
C40|concrete histories of the cache machine with a throwing generator
C41|concrete interleaving of deprioritize with an eviction
C42|concrete interleaving of the destructor with a running worker
C43|per-thread line buffers; invariant over interleavings
C44|recursion over the tree built by the constructor, with C30
C45|wavelets as sums over boxes (C32) compared with their definitions
C46|convolution views over exact rings: evaluation = rasterization, by induction over kernel and image
C47|view expressions by structural induction: accessor walk, prerasterize contract, requests inside the child
C48|subdivision into boxes: partition by arithmetic and induction
C49|histogram fill, running accumulators; induction over pixels
C50|two-pass grassfire; distance characterisation by induction over the scan order
C51|stop watch state machine; induction over histories
C52|run-length labelling and connected components; invariant over rows, against graph connectivity
C53|tiles labelled separately, consolidated over borders in any order of jobs; refinement to C52's specification
C54|settings with polling, parsing, file stamps, API calls and listeners; induction over histories
C55|recursive partition of a point cloud over sorted index arrays; induction over blocks
C56|LDL^T factorisation in skyline storage and both substitutions; loop invariants over an ordered field
C57|byte-level writers and readers; round trip by induction over records; cut files
C58|file-name functions on byte strings; FNV hash as 64-bit modular arithmetic
C59|box sums, cost functions and best-disparity search; loop invariants
C60|recursive subdivision of search regions; induction over the recursion
C61|pixel format conversion tables; case analysis and loops over pixels
C62|channel rescaling with IEEE single/double rounding as functions on rationals
C63|semi-global path recurrence: dynamic programming equals the minimum over all label sequences
C64|scan lines of all directions: each pixel exactly once per direction; bounds of accumulated costs
C65|choice of disparity, sub-range construction; case analysis and loop invariants
C66|LU decomposition with partial pivoting; invariants PA = LU; determinant against Mathlib's
C67|expressions of functors by structural induction over a field
C68|corner argument: linear-fractional functions without poles take their extremes over a box at corners; lists of sampled pixels
C69|closed forms of both polynomials per cell, floor/round characterised; field arithmetic
C70|locality lemma for each interpolation (pixels read are in the padded box), composed with C28 (edge extension) and C68 (boxes)
C71|invariant: the table holds exact values on its grid; refinement by well-founded recursion on the box width; blending as convex combination
C72|traversal with an explicit stack shown equal to a structural recursion; invariant of the tree (children are the quadrants, boxes contain their primitives) for every history; counting for pairs
C73|partial correctness of the non-structural recursions by fixpoint induction; termination by halving box sizes; invariant on forced elements; non-termination by fixpoint induction to False
C74|best-first search invariant (everything not beaten is below a queued node); triangle inequality for the heuristic
C75|heap of nodes with the three pointers; invariant (child lists are chains that agree with the parent pointers, well-founded) kept by every operation; partial fixpoints for the loops; non-termination by fixpoint induction
C76|ancestry as the chain of parents; the two ancestries agree on a prefix, loop invariant of the binary search
C77|world placement as an inductive relation; product along a path equals the quotient of the world placements; group laws of affine maps
C78|the world placement after an assignment, inside and outside of the subtree
C79|store invariant (heap invariant, roots, sibling names) preserved by each operation, induction over histories
C80|paths as a relation between names and nodes; splitting inverts joining; breadth-first search minimises depth
C81|induction over the height of the trees with a loop invariant for the sorted child lists; union by path
C82|effect of each operation on the parent relation, read off the invariant
C83|invariant of the two nested maps over the list of matches; numbering as a bijection; chains as the equivalence generated by matches
C84|heap of features; invariants of the nodes and of the connections over the list of points; the multimap as a stable insertion
C85|fold over an arbitrary permutation of the iterations; induction over draws and attempts; counterexamples for the refuted parts
C86|Model over numbers without arithmetic laws; invariants of the simplex (size, recorded values, last vertex never rises) by case analysis of an update, induction over updates and restarts; coordinates of the points tried in a field.
C87|Loops modelled over an abstract problem; chain of accepted points by induction over outer iterations; damped normal equations as real matrices, quadratic form of the damped Hessian.
C88|step rules as recursive functions over vectors of an ordered field; the length found by Armijo by induction on the trials left; telescoping sum for the convergence of steepest descent; the way of conjugate gradients as an inductive relation; counterexamples evaluated in the kernel
C89|the whole search as a fold over runs, iterations and particles with the random numbers as an arbitrary sequence; invariant "the best value is that of the best point and at most every value seen"; refutation for all functions with values of at least 1
C90|the loop as a recursion over the iterations left with the points evaluated; invariant on the best point; exactness of the central difference and of the 2x2 inverse by field arithmetic
C91|pixels as functions from channels with a valid channel; both code paths of each functor modelled; induction on expressions; NaN as the missing value of an option; the scans of the edge mask by induction with the first and last index found
C92|one step lemma for the loop body, then induction over the list of pixels without repetition with the original map as reference; the algebra of absolute values for the distance of pixels kept
C93|images as functions, tiles as partial images whose reads may fail; the range of the valid disparities by induction over the pixels; floor and ceiling bounds show that all reads are in the part kept
C94|weighted sums over lists of neighbours; windows as lists of offsets with exact membership and length; loops by induction; upper quartile by counting in the sorted list
C95|normal equations by induction over the rays; the sum of squares of distances as a quadratic form, minimal exactly at the solution; singularity of the matrix iff all rays are parallel; explicit solution for two rays
C96|vector algebra over an ordered field with an abstract square root; uniqueness of the line of a pixel from independence of A, H, V
C97|polynomial identities; for matrices the 21 quadratic relations of a rotation and a case split on the largest diagonal sum; real trigonometry for axis, angle and interpolation; induction over the list for slerp_n
C98|invariant "matrices fresh" by induction over the history of calls; matrix algebra; the inverse through the model of the general matrix inverse
C99|vector algebra; orthonormal frame from baseline and mean axis; uniqueness of the pixel from the two plane equations
C100|Rodrigues formula as specification; polar coordinates for atan2; the 21 quadratic relations of a rotation matrix for the round trips of the four orders; arithmetic and geometric mean for the error near gimbal lock
C101|invariant over histories of setters; the conjugation of quaternions as a rotation; algebra of rigid transforms
C102|Lagrange identity; the root of the quadratic gives the ratio of sines; uniqueness from the cross product and the sign
C103|case analysis of the parts with the midpoint characterisation of C95; invariant that the iterates stay on the ray; C102 for flat water
C104|Cholesky decomposition as completion of squares; difference of costs is the quadratic form
C105|floor and ceil from the bracketing samples; identities of polynomials
C106|the loops are the Lagrange basis of Mathlib; uniqueness of the interpolating polynomial; induction over the list of threads
C107|permutation and order of the sort; convexity; the map is the list of segments for increasing lines
C108|cases of the fraction of the step; C97 for slerp; Lagrange basis of Mathlib
C109|indices from floor and ceil as in C105; at the points of the grid the fraction is zero
C110|invariant over every sequence of operations: the cached matrices are the transform, its shift, and their inverses; Mathlib-free 3x3 matrix identities
C111|C48 boxes and C61 Bresenham lines for the samples; affine and monotone functions take their extremes at corners
C112|cases of the two comparisons in the wrap; box invariants of C110
C113|composition of the affine maps of C110 with the wrap of C112 and the boxes of C111
C114|uniqueness of the positive root k of the quartic of the foot point; each case of the code (Cardano outside the evolute, trigonometric solution inside, the cusp) is shown to give a root of the cubic that leads to it; half-angle formulas for atan2
C115|trigonometry; intersection of a direction with the spheroid
C116|sum formulas turn the differences into multiples of the exact axes; monotone height of the surface in the latitude
C117|scaling to a sphere; |c + t e|^2 as a distance to the axis plus a square
C118|invariant over all reachable histories: references out are at most the use count, and refer to open files with fresh numbers; the greatest rank is characterised by cases
C119|inductive invariant over interleavings: distinct numbers below the counter, the lock holder is the only writer
C120|loops with a running index are evaluated to double sums over graded monomials; triangular numbers; Newton for affine maps from C90
C121|real analysis: derivatives of polynomials, tan(tu) <= t tan u from a derivative sign, monotone bending; files as association lists
C122|case analysis over ordered fields; winding numbers as sums of signed crossings; closed polygons as cyclic sums
C123|the emitted points are scanned with a state (is an edge due), which gives cyclic alternation of outward and inward points; the successor map is injective, so the components are its cycles; edges of the result = clipped edges + edges along the cutline; a ray away from the cutline crosses only the former; the direction of the ray does not matter
C124|refinement: a representation relation to a list of polygons, kept by every operation; loops with running offsets by induction over the polygons
C125|a fold that keeps the last minimum over the enumeration of all places
C126|the sizes with their places are sorted; the copy loops are block assignments into arrays of the same total length
C127|the loop appends the pieces of each polygon; theorems of C123 for each; half-planes that contain the polygon contain the pieces
C128|simulation: the state of the reader after the lines written so far is the list of the polygons written so far
C129|induction over the descriptor with the partial sum; a word of bytes read at once differs in the bits in which its bytes do
C130|the index loop is a flatMap of what each point adds; invariant of the best two so far for the simple matcher
C131|the reversed loop with its sets is a recursion from the end; lexicographic order for the comparison; permutations
C132|invariant over histories; for the merge loop: at the start of a round the last time and value coincide, the value is below everything not yet taken, the target is between the two times at the end
C133|search loops as first hit of a range, shifted by the origin of the tile; weighted means bounded; induction over smoothing passes
C134|vectors along the line of the centers; triangle inequality; the far point of a ball
C135|Stewart identity for the distance from a point between the centers; far point and convex combination as witnesses
C136|invariant: segments of a row in order with gaps; induction over the merge loop, the runs, the rows and the blobs; induction over histories
C137|lookup by the next end as a recursive function; case analysis of the insertion; induction over strips, rows and patches; reachable views
C138|nested loops as a fold over a grid without duplicates, then as sums over a finite set; the window of a pixel of a tile is within the margin
C139|the search as sums over the disk; positive weights; induction over passes
C140|reuse of C52 (blobs), C137 (patches) and C50 (distances); the box copied for a tile contains the boxes of the blobs that touch it; invariant of the in-place rounds; one pixel holes by a fixed point
C141|a fold over places where each slot has one source; normal equations as a polynomial identity; completing squares; explicit surfaces for the refutations
C142|invariant over reachable states: the queue holds the column sums of the box
C143|induction over the list of insertions, with the least box as invariant
C144|a fold whose state is either the own distance, when nothing has beaten it so far, or 0; a maximum over a finite set
C145|each turn of the loop is one pixel over another, by boxes; induction over the list of sources
C146|induction over the levels with the box as x/2 and x/2+1; a relation of which pixel feeds which; two opaque sources for the refutation
C147|the loop with fuel, shown to suffice; rounding errors summed as a geometric series
C148|invariant of the search with increasing scales; division with remainder
C149|through C37 (outlier brackets) and sorted lists; ceiling of a quotient
C150|invariant of the loops modulo 2^w: output plus addend times the number with the remaining bits; patterns by evaluation
C151|popcount of an exclusive or of bit lists by induction; offsets of a flatMap as sums of lengths
C152|between-class variance plus variance within the classes is the total variance; invariants of the accumulators
C153|invariant of the loop over the bins with the skipped empty classes; first maximum against the mean of all
C154|through C49 (percentile bin); floor and monotonicity
C155|loops as filtered lists; the eight comparisons against the neighbourhood
C156|as C155 with a loop over planes; induction over octaves on the squares of the sigmas
C157|the values pushed are whole columns, the last w x h of them are the window; C49 for the sums
C158|the store has the size of the window before and after each call; C37 for the median
C159|the loops as updates of one pixel; on the way to the nearest invalid pixel there is a boundary pixel not farther away; in the order of the loops values only decrease
C160|as C159
C161|knots increase, so the search finds the piece; each piece is an interpolation of interpolations, its derivative by the product rule; both pieces have the same tangent at a point
C162|algebra of parabolas; case analysis on the reads
C163|folds as sums; pointwise description of the updates; sums over a period; first greatest element by induction
C164|the two components besides the largest; identities of dot and cross products
C165|floor and ceiling; cases of the clamp
C166|C32 for each box; the tables are checked by the kernel; sums over boxes by permutation
C167|the smallest coordinate is not the only nonzero one; unit vectors with equal components across an axis and on the same side agree
C168|parities of the four cases; linear arithmetic
C169|the text of a row by induction; getline and >> undo it line by line
C170|common part of both paths; following ".." undoes the rest of the directory; position of the last dot; loop invariants on the iterator
C171|invariants of both passes along the order of the pixels
C172|identities of dot and cross products; squares of sums
C173|the path of the accessor visits each neighbour once; weighted means
C174|the entries around a value in a sorted list; rounding between integers; invariant of the assignments
C175|first and last true index of a loop; columns are searched only in the rows with data
C176|the error as a quadratic form on the sphere; least value by compactness; there the form has an eigenvector
C177|case analysis on the comparisons
