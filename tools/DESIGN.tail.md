## 4. Discrepancies found while modelling

Those with a theorem are in the notes above. Others, seen in the text of the code and not (or only partly) proved:

* Cache: `try_invalidate` calls `info()` (a read lock) while holding the exclusive lock, so cache debug logging can
  deadlock; after two overlapping misses charged a line twice, `resize(0)` throws.
* Quad tree: a zero-size image takes the logarithm of zero; rounding of the logarithm can lose a level.
* Block views: negative pixel coordinates with a cache are undefined behaviour.
* `CropView`'s box constructor rounds; `find_image_min_max` without a valid pixel returns the extreme values.
* `BlobIndexThreaded`: boxes of a single tile stay stale after culling; culling the first blob moves an iterator
  before the beginning; float `ceil` in the tile count is exact only below 2^24.
* Settings: log files are added again on each reload; a file that cannot be read is not tried again.
* `MatrixSparseSkyline::operator=` clears the skyline; reads through a non-const object lower it.
* Chipper: block size 0 divides by zero; the code for narrow extents is dead.
* `write_binary_match_file` empties the file before it checks the sizes.
* SGM: MGM tasks call `get_path_pixel_diff` with the opposite sign; an exception leaks a line buffer.
* `SpatialTree`: growing a tree by a factor of more than 2^31 shifts a 32-bit integer by 32 or more; the elements moved
  by `add` are taken from the first node whose list was looked at, whether or not it was split.
* `FrameStore::set_transform` and `get_transform` on frames of different trees use the identity without an error;
  `frame_names` and the other traversals recurse over siblings, so that the stack grows with the number of children.
* `CameraRelationNetwork::from_cnet`: a control point without measures is undefined behaviour (`end() - 1` of an empty
  vector).
* `RandomSampleConsensus`: an exception of the fitting functor in the parallel loop ends the program; the reduced number
  of required inliers is kept for later calls.
* `buildTracks` never merges two tracks that turn out to be connected, and a second interest point of an image replaces the
  first one in a track.
* `nelder_mead`: shrinking the whole simplex leaves the vertices unordered, so that the result need not be the best point
  evaluated; a seed without coordinates is undefined behaviour.
* `levenberg_marquardt`: with an error of 2^53 or more (or NaN) `x_try` is returned without having been assigned; the sixth
  trial of an iteration is dropped even if it is better.
* `conjugate_gradient` started where the gradient vanishes divides 0 by 0 at its second iteration, and a Fletcher-Reeves
  direction may go up, in which case `ArmijoStepSize` accepts an increase and `CharalambousStepSize` never ends (C88).
* `particle_swarm_optimization`: `if (double d = func(x[i]) < g_hat_val)` assigns the value of the comparison, 1, to `d`,
  which becomes the best value; the search is not confined to the box; a particle that is too fast gets speed 1 instead
  of `v_max` (C89).
* `NewtonRaphson::solve` returns the point after the last step without evaluating the function there; it may be worse
  than the guess (C90).
* `edge_mask` compares with strict inequalities, so with buffer 0 it also masks the first and last pixel of each row and
  column that do not have the mask value; `mean_channel_value` of a masked pixel skips the last channel; the safe quotient of
  masked pixels tests only whether all channels of the divisor are zero; `validate_mask` names a class that is never defined
  (C91).
* `DisparityRangeMaskFunc` compares rows with `m_min[0]`; `DisparityMaskView::prerasterize` trusts the search range given;
  `DisparityUpsampleView::prerasterize` does not halve the box; `RmOutliersUsingMeanFunc` does not advance the column when it
  skips a gross outlier; `RmOutliersUsingStdDev` allocates `(2v+1)^2` values for a window of `(2h+1)(2v+1)`;
  `StdDevImageFunc` sums `(w+1)(h+1)` pixels for even sizes and returns a variance (C93, C94).
* `are_nearly_parallel` does not see opposite directions and compares neighbours only; `StereoModel::operator()` reflects
  about the first camera whichever camera the point is behind (C95). The view matrix constructor of `CAHVModel` takes the
  centre from row 3; `epipolar` projects the axis, not the baseline, so rows agree only for baselines perpendicular to the
  mean axis (C96). `slerp_n` adds one to weights that start with two zeros; the quaternion of a reflection is that of some
  other matrix (C97).
* `PinholeModel::point_to_pixel` accepts points behind the camera because it also compares with the opposite direction;
  setters called with `rebuild = false` leave stale matrices; a setter that throws has already changed the camera;
  `scale_camera` and `strip_lens_distortion` pass the rotation through a quaternion (C98). `epipolar` ignores the frame
  vectors; `CAHVModel::toPinhole` normalises `A` of the camera it converts, after having used it, and assumes H and V to be
  perpendicular (C99).
* `rotation_matrix_to_euler_*` give the angles (0, right angle, 0) for every rotation in gimbal lock; the comment of
  `euler_to_rotation_matrix` speaks of new axes, the code uses fixed ones (C100). `AdjustedCameraModel::apply_transform`
  changes the rotation but not the stored inverse, which `point_to_pixel` uses (C101).
* `snellLaw` refuses a ray perpendicular to the water, so a camera looking straight down gets no correction (C102, C103).
  `set_bathy` switches the mode on before it checks its arguments, and compares planes but not water images (C103).
* `LagrangianInterpolation::operator()` is const but writes the member `m_times_temp`: calls from several threads disturb each
  other (C106). It and `HermitePositionInterpolation` refuse the last time (C105, C106). `TLCTimeInterpolation` with a table of
  decreasing lines gives wrong times, with a short table it reads through the end of a map (C107).
* `SlerpGridPointingInterpolation` uses the coordinate of the last column as an index (`low_icol = m_col_end - 1`) and scales
  the extrapolation by the whole width (C109). `QuatLagrangianInterpolationVarTime` does not align the signs of its
  quaternions (C108).
* `GeoReference`: with a rotation the half-pixel shift for area pixels, `crop` and `resample` use the diagonal only (C110); a
  `set_transform` that throws leaves the object with the new matrix and the old inverse (C110); `sample_int_box` gives no
  samples for sub-pixel boxes left of zero, the maximum corner is never sampled, `lonlat_to_pixel_bbox` does not wrap
  longitudes (C111); `set_wkt` places the box with the old `m_is_projected` (C112). `GeoTransform` decides its shortcut by one
  corner, and `reproject_point_image` gives points to a function of pixels (C113).
* `Datum::cartesian_to_geodetic` takes a power of a negative number near the centre and gives latitude and height zero there;
  one of its three branches for the longitude is never taken (C114).  `Datum::radius` takes a geocentric latitude,
  `geocentric_latitude` returns the radius for a sphere and radians otherwise, `geocentric_radius` scales the altitude at the
  poles by b^2/a^2 (C115).  `datum_intersection` also returns points behind the camera (C117).
* `DiskImageManager::get_handle` prefers a closed image that shows the box to an open one further down the list, then fails with
  "Expecting an open handle"; a failed call leaves the use count raised (C118).
* `TsaiLensDistortion::scale` and `PhotometrixLensDistortion::scale` multiply all parameters by the scale, which fits neither
  normalised coordinates (nothing should change) nor pixels (coefficients should shrink) (C121).
* `FovLensDistortion` accepts parameters above pi, for which the image is flipped, and undistorts pixels outside the image circle
  to arbitrary places without a report (C121).
* `RPCLensDistortion::read` drops the leading number of each denominator without checking that it is one, and accepts negative
  degrees (C120).
* `edgesIntersect` reports an intersection for collinear edges that are up to about 1e-12 of their length apart (C122).
* `findClosestPolyEdge` also searches the edge from the last to the first vertex of a polygonal line that is not closed (C125).
* `sortBySizeAndMaybeAddBigContainingRect` with `counter_cc = false` adds a rectangle that is itself a hole (C126).
* `writePoly` skips an empty polygon before it updates the offset: the polygons after it are written with wrong vertices; closed polygons are read back open (C128).
* `InterestPointMatcher::operator()` adds nothing to the index list for a point whose nearest neighbour the constraint rejects, so later points get the matches of others and the end of the list is read; likewise if the second list is empty (C130).
* `InterestPointMatcherSimple` ignores its constraint and matches one of two equal descriptors (C130).
* `ScaleOrientationConstraint` wraps by 2 pi, points from OpenCV have degrees (C129).
* `remove_ip_near_nodata` decrements `begin()` if the first point is removed; the test is `==`, the comment says `<=` (C131).
* `crop` of interest points with an integer box truncates towards zero (C131); `InterestPointLessThan` does not compare descriptors (C131).
* `CDFAccumulator` with fewer than about 30 quantiles starts with probabilities that are not in order; merging then reads outside of the samples (C132). `quantile` ignores samples not yet merged, and is 0 before the first merge (C132).
* `FillHoles` with smoothing passes gives values that depend on the tiles: the margin is enough to fill the pixels of the tile, not those the smoothing reads (C133). A mode other than 1 and 2 uses a distance kernel that was never allocated.
* `SphereBase::grow` of a point adds the new distance to the radius instead of replacing it: the result is larger than needed by the old radius. Growing to a sphere with the same center does nothing, and to a much larger sphere does not cover it (C134).
* `SphereBase::crop` to an empty sphere does nothing; when the sphere contains the other center it becomes the other sphere even if that is larger. `contract` below zero leaves a non-empty sphere without points; the converting constructor turns an empty sphere into a non-empty one with an uninitialized radius; `operator==` ignores emptiness (C135).
* `SparseCompositeView::absorb` does not check a strip for overlap if it ends to the right of all strips of the row; pixels of the new strip left of the existing strip are then lost without an error (C137).
* `InpaintTask` compares the end of the enlarged box (one after the last column) with `>=`: a blob with pixels in the last column or row but one is left unfilled, though one in the second column or row is filled (C140).
* Inpainting with grassfire starts from the values stored in the hole; after the fixed number of rounds they still contribute (C140).
* The parabola refinement of disparities accepts any point where the slopes of the fitted surface vanish, up to 5 pixels away: also saddle points and maxima (C141).
* `ImageComposite::prepare` moves the images by the corner of the mosaic at every call: a second call moves them out of place unless that corner is (0, 0) (C143).
* A source image of one column or one row gets an empty mask in `ImageComposite` (its grassfire distances are all 0), so it does not show in a blended mosaic (C144).
* `PositionedImage::reduce` repeats the last column and row beyond the image, so that a source has a part in pixels that its smoothed image does not reach; the list of sources made for a patch does not count with these, hence a blended pixel depends on the patch that was asked for (C146).
* With a subsample factor of 3 or more, `DiskImagePyramid` makes a level without columns (or rows) for a narrow image: the width 1 is rounded to 0 (C147).
* `DiskImagePyramid::get_image_clip` rounds both corners of the region down, so that the last columns and rows of the region may be missing from the clip, and a region smaller than the scale may give an empty clip (C148).
* `overwrite_if_no_good` compares times and sizes only: levels on disk made with other nodata values or valid ranges are used again (C147).
* `fill_costs_census5x5` stores the ternary codes, which have 48 bits, in `ImageView<uint32>`: the upper 16 bits, that is the upper row of the window and the pixels above and to the upper left of the centre, do not count in the costs (C151).
* The two versions of `otsu_threshold` do not give the same result when the best split is not unique (for example for an image of two values), although the comment says so; with one sample row or column the second one casts NaN to `int` (C153).
* For an image of one value `otsu_threshold` widens the range by 1, so the threshold is that value plus 1/2 in the first version and the value itself in the second one (C152, C153).
* `percentile_scale_convert` makes an image black in which both percentiles fall into one bin, such as one with 98 percent background (C154).
* `find_peaks` in scale space compares only the same pixel in the planes below and above (C156).
* `scale_to_plane_index` cuts the fraction, although it is said to give the closest plane (C156).
* `StdDevView` expands the copied region by half the width also vertically: windows higher than wide read outside of it (C157).
* `StdDevView` takes the oldest value out of its window for each invalid pixel, valid or not: NaN or wrong deviations near invalid pixels (C157).
* `StdDevView` and `WindowFunctionView` place windows of even width differently: the first to the right, the other to the left (C157).
* `median_filter_view` with a 1x1 window throws at an invalid pixel (C158).
* `catmull_rom::prime` forms `B1` with the two weights left from `A2`: it is the derivative only at the control points (C161).
* A closed `catmull_rom` curve at `max_parameter()` reads one element past the end of its knots and points (C161).
* An open `catmull_rom` curve whose first and last points coincide is refused (C161).
* `fit_peak` accepts a point in a flat neighbourhood with NaN as its position (C162).
* `fit_peak` in scale space returns false for a bad scale after moving the point (C162).
* `weighted_histogram` cuts instead of rounding down: values up to 1.5 bins below the range count in the first bin (C163).
* `orientation_interpolate`: the ratio is `(ori - bin_size) / bin_size`, right in a single bin, negative or above 1 elsewhere; an orientation of pi writes past the end (C163).
* `orientation_histogram` adds the central pixel again and again instead of the pixels of the region (C163).
* `filter_1d` with wrapping and a half width greater than the vector reads at a negative index (C163).
* `find_weighted_histogram_mode` compares with 0.8 times the number of the first bin instead of its value, and never clears the second mode, so it is reported four times (C163).
* `formBasis` gives NaN for every vector along an axis: the two components it uses are both 0 (C164).
* `computePlaneTangents` says its tangents are perpendicular to each other; they are not (C164).
* `round_and_clamp` to 64-bit integers converts 2^63 out of range for great values (C165).
* `inverse_bayer_filter` moves the image by one pixel left and up and averages the last two columns and rows with zeros (C168).
* `read_matrix_as_txt` cannot read an empty matrix, ends a row without an error at a value such as nan or inf, and throws on a blank line at the end (C169).
* `make_file_relative_to_dir` counts "." and ".." in the directory, and so a slash at its end, as directories to leave (C170).
* `prefix_from_filename` cuts at the dot of a directory if the name has none (C170).
* `get_files_with_prefix` looks inside of a directory that is named like the prefix, instead of beside it (C170).
* `two_threshold_fill` is documented as a flood fill; it makes only two passes and misses ways that turn back, and depends on the blocks (C171).
* `two_threshold_fill` tests `> 0` instead of equality with the value for true: a value for false other than 0 spreads too (C171).
* `Colormap` steps before the first entry of its map for values below the first key (C174).
* `populate_lut_map` divides by 0 if all keys are equal, and takes lines it skips into account as key 0 (C174).
* `parseColorStyle` drops the last line of a file that does not end with an end of line (C174).
* `RadialTransformAdaptor::forward` lacks the factor `m_half_width` in y.

## 5. Not modelled

Everything not cited by a definition. In particular: image file codecs and GDAL/OpenCV/PROJ wrappers,
floating-point rounding (except C62), camera models' numerical behaviour, bundle adjustment apart from the control network, interest point
detection and matching, mosaicking apart from the quad tree, GUI and tools, performance, memory allocation failure,
operating system scheduling and memory ordering. The default numeric inverse of `Transform`.
