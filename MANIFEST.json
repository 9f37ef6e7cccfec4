{
 "claims": [
  {
   "property": "C01",
   "status": "proved",
   "theorems": [
    "VW.Cache.cache_lists_intact",
    "VW.Cache.cache_no_ub"
   ],
   "note": "Every history of legal operations keeps both lists well formed, disjoint and complete; no null/dangling link is followed."
  },
  {
   "property": "C02",
   "status": "partial",
   "theorems": [
    "VW.Cache.cache_size_exact",
    "VW.Cache.cache_size_exact_partial",
    "VW.Cache.cache_size_leak"
   ],
   "note": "False as stated: a generator exception leaves a charged line (cache_size_leak). Proved: the size equals loaded bytes plus wedged lines; exact when no generator has thrown."
  },
  {
   "property": "C03",
   "status": "partial",
   "theorems": [
    "VW.Cache.cache_bound_after_miss",
    "VW.Cache.cache_bytes_after_miss_partial",
    "VW.Cache.cache_bound_fails_on_hit"
   ],
   "note": "Bound holds after every miss (up to lines that are held); refuted on a hit after a resize-down blocked by held lines."
  },
  {
   "property": "C04",
   "status": "proved",
   "theorems": [
    "VW.Cache.held_line_stays"
   ],
   "note": ""
  },
  {
   "property": "C05",
   "status": "proved",
   "theorems": [
    "VW.Cache.deref_returns_generated",
    "VW.Cache.generator_called_only_on_miss"
   ],
   "note": ""
  },
  {
   "property": "C06",
   "status": "partial",
   "theorems": [
    "VW.Cache.lru_refuted",
    "VW.Cache.eviction_order_partial"
   ],
   "note": "LRU is refuted; the actual order is proved."
  },
  {
   "property": "C07",
   "status": "proved",
   "theorems": [
    "VW.Cache.resize_enforces_limit"
   ],
   "note": ""
  },
  {
   "property": "C08",
   "status": "partial",
   "theorems": [
    "VW.Cache.Race.concurrent_miss_refuted",
    "VW.Cache.Race.concurrent_miss_partial"
   ],
   "note": "Two overlapping misses generate twice / charge twice (refuted); true for non-overlapping misses."
  },
  {
   "property": "C09",
   "status": "partial",
   "theorems": [
    "VW.Cache.Handles.handle_lock_discipline_partial",
    "VW.Cache.Handles.double_deref_hangs",
    "VW.Cache.Handles.copy_locked_double_release",
    "VW.Cache.Handles.reset_locked_hangs"
   ],
   "note": "Refuted in general by three witnesses; proved for disciplined clients."
  },
  {
   "property": "C10",
   "status": "proved",
   "theorems": [
    "VW.Pool.pool_concurrency_limit"
   ],
   "note": "A terminating worker that has already signed off may briefly share its slot number with its successor; stated in the theorem."
  },
  {
   "property": "C100",
   "status": "partial",
   "theorems": [
    "Verif.Camera.euler_matrix",
    "Verif.Camera.euler_new_axes",
    "Verif.Camera.euler_round",
    "Verif.Camera.euler_lock",
    "Verif.Camera.xyzQ_spec",
    "Verif.Camera.qXYZ_round",
    "Verif.Camera.qXYZ_lock",
    "Verif.Camera.qXYZ_lock_inexact"
   ],
   "note": "Exact reals. Refuted: where the second angle is a right angle all rotations get the angles (0, right angle, 0), whose matrix is another one (euler_lock); quaternion_to_euler_xyz is exact at the right angle itself but not within its threshold, with the error bounded in qXYZ_lock (qXYZ_lock_inexact); the comment says the turns are about the new axes, they are about fixed ones (euler_new_axes)."
  },
  {
   "property": "C101",
   "status": "partial",
   "theorems": [
    "Verif.Camera.adj_run",
    "Verif.Camera.adj_setters",
    "Verif.Camera.rotCenter_spec",
    "Verif.Camera.move_rigid",
    "Verif.Camera.adj_spec",
    "Verif.Camera.adj_consistent",
    "Verif.Camera.ecef_spec",
    "Verif.Camera.adj_transform",
    "Verif.Camera.adj_transform_stale",
    "Verif.Camera.read_write",
    "Verif.Camera.read_short"
   ],
   "note": "Exact numbers; the camera inside is abstract. Refuted: apply_transform does not update the stored inverse rotation, so point_to_pixel is wrong afterwards unless the rotation is the identity (adj_transform_stale), until the camera is written and read; with a scale other than 1 only the centre of rotation is moved as the world is, so centres of linescan cameras are wrong (adj_transform). A file cut short is accepted (read_short)."
  },
  {
   "property": "C102",
   "status": "partial",
   "theorems": [
    "Verif.Camera.Bathy.rayPlane_spec",
    "Verif.Camera.Bathy.rayPlane_behind",
    "Verif.Camera.Bathy.refracted_unique",
    "Verif.Camera.Bathy.snell_spec",
    "Verif.Camera.Bathy.snell_complete",
    "Verif.Camera.Bathy.snell_perpendicular"
   ],
   "note": "Exact numbers, unit normals and directions. Refuted: a ray perpendicular to the plane is refused though it goes straight on (snell_perpendicular); a ray that starts below the plane gets the point behind its start (rayPlane_behind)."
  },
  {
   "property": "C103",
   "status": "partial",
   "theorems": [
    "Verif.Camera.Bathy.curved_exact",
    "Verif.Camera.Bathy.setBathy_spec",
    "Verif.Camera.Bathy.bathy_off",
    "Verif.Camera.Bathy.one_plane",
    "Verif.Camera.Bathy.two_planes",
    "Verif.Camera.Bathy.two_planes_unbent",
    "Verif.Camera.Bathy.flat_exact",
    "Verif.Camera.Bathy.flat_nadir",
    "Verif.Camera.Bathy.setBathy_failed",
    "Verif.Camera.Bathy.surfaces_confused"
   ],
   "note": "Exact numbers; map projections, the seed of the intersection and the sampling of water images are abstract. Refuted: if one camera looks straight down on flat water nothing is corrected, and the point under water is the uncorrected one (flat_nadir); a failed set-up leaves the mode on, and with cameras given as a list a member that was never set is then read (setBathy_failed); different water images with the same best-fit plane are taken for one (surfaces_confused)."
  },
  {
   "property": "C104",
   "status": "partial",
   "theorems": [
    "Verif.Camera.Bathy.fit_spec",
    "Verif.Camera.Bathy.land_spec",
    "Verif.Camera.Bathy.areMasked_spec",
    "Verif.Camera.Bathy.cround_near",
    "Verif.Camera.Bathy.clone_spec",
    "Verif.Camera.Bathy.clone_zero"
   ],
   "note": "Exact numbers; reading of files is not modelled. Refuted: with no images a single plane is kept, so there are more planes than images (clone_zero)."
  },
  {
   "property": "C105",
   "status": "partial",
   "theorems": [
    "Verif.Camera.Interp.linear_spec",
    "Verif.Camera.Interp.linear_edge",
    "Verif.Camera.Interp.accel_spec",
    "Verif.Camera.Interp.accel_exact",
    "Verif.Camera.Interp.accel_jump",
    "Verif.Camera.Interp.hermite_spec",
    "Verif.Camera.Interp.hermite_exact",
    "Verif.Camera.Interp.hermite_last"
   ],
   "note": "Exact numbers. Refuted: the end of the range of times that linear interpolation checks for is refused all the same (linear_edge); with velocities that do not fit the positions the interpolation with accelerations jumps at the samples (accel_jump); Hermite interpolation refuses the time of the last sample (hermite_last). Curve3DPositionInterpolation (least squares) is not modelled."
  },
  {
   "property": "C106",
   "status": "partial",
   "theorems": [
    "Verif.Camera.Interp.through_spec",
    "Verif.Camera.Interp.window_spec",
    "Verif.Camera.Interp.lagrangeVar_spec",
    "Verif.Camera.Interp.lagrangeVar_exact",
    "Verif.Camera.Interp.lagrangeVar_sample",
    "Verif.Camera.Interp.radius_one",
    "Verif.Camera.Interp.times_not_checked",
    "Verif.Camera.Interp.lagrangeUni_spec",
    "Verif.Camera.Interp.lagrangeUni_exact",
    "Verif.Camera.Interp.lagrangeUni_last",
    "Verif.Camera.Interp.uniOk_spec",
    "Verif.Camera.Interp.threads_locked",
    "Verif.Camera.Interp.threads_race"
   ],
   "note": "Exact numbers. Refuted: a radius of one is refused though the message asks for more than zero (radius_one); times that do not increase are accepted (times_not_checked); with equal steps the last time is refused (lagrangeUni_last); overlapping calls of threads disturb each other through the member array of times, calls under a lock are right (threads_race, threads_locked)."
  },
  {
   "property": "C107",
   "status": "partial",
   "theorems": [
    "Verif.Camera.Interp.weights_spec",
    "Verif.Camera.Interp.smooth_spec",
    "Verif.Camera.Interp.smooth_const",
    "Verif.Camera.Interp.smooth_misses",
    "Verif.Camera.Interp.smooth_none",
    "Verif.Camera.Interp.tlcTime_spec",
    "Verif.Camera.Interp.tlc_decreasing",
    "Verif.Camera.Interp.tlc_short"
   ],
   "note": "Exact numbers; the exponential is any positive increasing function, the sort any that sorts. Refuted: the smoothed curve does not go through the samples (smooth_misses); no weights give the origin instead of an error (smooth_none); a table with decreasing lines gives wrong times (tlc_decreasing), one with fewer than two entries an invalid read (tlc_short)."
  },
  {
   "property": "C108",
   "status": "partial",
   "theorems": [
    "Verif.Camera.Interp.slerpPose_spec",
    "Verif.Camera.Interp.slerpPose_unit",
    "Verif.Camera.Interp.smoothPose_spec",
    "Verif.Camera.Interp.quatVar_spec",
    "Verif.Camera.Interp.quatVar_sample",
    "Verif.Camera.Interp.quatVar_signs"
   ],
   "note": "Reals. Refuted: with Lagrange interpolation a camera at rest whose quaternions alternate in sign gets the zero quaternion (quatVar_signs). QuatLagrangianInterpolation (equal steps) is not modelled; its window and array of times are those of C106."
  },
  {
   "property": "C109",
   "status": "partial",
   "theorems": [
    "Verif.Camera.Interp.grid_in",
    "Verif.Camera.Interp.grid_node",
    "Verif.Camera.Interp.grid_left",
    "Verif.Camera.Interp.grid_left_two",
    "Verif.Camera.Interp.grid_left_slope",
    "Verif.Camera.Interp.grid_right_outside"
   ],
   "note": "Reals. Refuted: before the first column the slope is scaled by the whole width of the table, so it is right with two columns only (grid_left_two, grid_left_slope); after the last column its coordinate is used as an index, which reads outside the table (grid_right_outside)."
  },
  {
   "property": "C11",
   "status": "proved",
   "theorems": [
    "VW.Pool.fifo_tasks_accounted",
    "VW.Pool.fifo_runs_once"
   ],
   "note": ""
  },
  {
   "property": "C110",
   "status": "partial",
   "theorems": [
    "Verif.Georef.pixel_point_round_trip",
    "Verif.Georef.affine_round_trip",
    "Verif.Georef.pixel_position",
    "Verif.Georef.area_shift_iff",
    "Verif.Georef.setTransform_accepts",
    "Verif.Georef.setTransform_failed_state",
    "Verif.Georef.crop_position",
    "Verif.Georef.crop_keeps",
    "Verif.Georef.resample_position",
    "Verif.Georef.resample_rotated",
    "Verif.Georef.make_exists"
   ],
   "note": "Exact field. Refuted: with a rotation the shift for area pixels is not half a pixel (area_shift_iff), cropping and resampling a rotated image move it (crop_position, resample_rotated); a failed set_transform leaves the new matrix with the old inverse (setTransform_failed_state)."
  },
  {
   "property": "C111",
   "status": "partial",
   "theorems": [
    "Verif.Georef.pixelToPointBox_covers",
    "Verif.Georef.pointToPixelBox_covers",
    "Verif.Georef.empty_box",
    "Verif.Georef.sampleInt_intBox",
    "Verif.Georef.sampleInt_misses",
    "Verif.Georef.pixelToLonlatBox_geographic",
    "Verif.Georef.pixelToLonlatBox_boundary",
    "Verif.Georef.pixelToLonlatBox_cylindrical",
    "Verif.Georef.sampleFloat_spec",
    "Verif.Georef.samples_spec",
    "Verif.Georef.pointToLonlatBox_cylindrical",
    "Verif.Georef.lonlatBoxes_cylindrical",
    "Verif.Georef.lonlatToPixelBox_geographic",
    "Verif.Georef.pole_missed",
    "Verif.Georef.corner_missed",
    "Verif.Georef.lonlatToPixelBox_unwrapped"
   ],
   "note": "Exact field; the projection is an arbitrary partial function. Proved for affine, geographic and cylindrical (monotone in each coordinate) maps, and for the sampled places of any map. Refuted otherwise: poles inside the box are missed (pole_missed), the max corner is not sampled (corner_missed), sub-pixel boxes near zero give nothing (sampleInt_misses), longitudes are not wrapped for geographic images (lonlatToPixelBox_unwrapped)."
  },
  {
   "property": "C112",
   "status": "partial",
   "theorems": [
    "Verif.Georef.wrap_spec",
    "Verif.Georef.wrap_within_iff",
    "Verif.Georef.wrap_same",
    "Verif.Georef.geographic_round_trip_iff",
    "Verif.Georef.projected_round_trip",
    "Verif.Georef.image_round_trip",
    "Verif.Georef.setTransform_mid",
    "Verif.Georef.global_image_lost",
    "Verif.Georef.setWkt_wrong_mid"
   ],
   "note": "Exact field. Refuted for georeferences without a known image size: a global image made in memory loses half of its pixels (global_image_lost), and set_wkt uses the old kind of projection to place the box (setWkt_wrong_mid)."
  },
  {
   "property": "C113",
   "status": "partial",
   "theorems": [
    "Verif.Georef.make_spec",
    "Verif.Georef.skip_round_trip",
    "Verif.Georef.forward_sameplace",
    "Verif.Georef.geographic_forward_reverse",
    "Verif.Georef.point_conversions_agree",
    "Verif.Georef.skip_boxes_cover",
    "Verif.Georef.boxes_boundary",
    "Verif.Georef.point_boxes_cover",
    "Verif.Georef.skip_wrong",
    "Verif.Georef.reproject_wrong",
    "Verif.Georef.reproject_keeps"
   ],
   "note": "Exact field; conversion between datums is not modelled (the constructor refuses it unless it is the identity). Refuted: the shortcut is decided by one corner, so that 0..360 to -180..180 sends pixels outside (skip_wrong); reproject_point_image treats points as pixels (reproject_wrong)."
  },
  {
   "property": "C114",
   "status": "partial",
   "theorems": [
    "Verif.Datum.toCartesian_spec",
    "Verif.Datum.longitude_spec",
    "Verif.Datum.cartesian_round_trip",
    "Verif.Datum.inner_round_trip",
    "Verif.Datum.equator_round_trip",
    "Verif.Datum.disc_round_trip",
    "Verif.Datum.near_centre",
    "Verif.Datum.centre_wrong",
    "Verif.Datum.geodetic_round_trip",
    "Verif.Datum.above_surface"
   ],
   "note": "Real numbers. Proved for every point outside a small spheroid around the centre (43 km for the Earth), and in each of the inner cases; refuted for points near the centre outside the evolute (near_centre, centre_wrong: power of a negative number gives latitude and height zero). In the singular disc the point found is moved to the equatorial plane (disc_round_trip)."
  },
  {
   "property": "C115",
   "status": "partial",
   "theorems": [
    "Verif.Datum.radius_spec",
    "Verif.Datum.radius_not_geodetic",
    "Verif.Datum.geocentricLatitude_spec",
    "Verif.Datum.geocentricLatitude_sphere",
    "Verif.Datum.radiusOfCurvature_spec",
    "Verif.Datum.geocentricRadius_spec",
    "Verif.Datum.geocentricRadius_pole",
    "Verif.Datum.inverseFlattening_spec"
   ],
   "note": "Real numbers. Refuted: radius takes a geocentric latitude (radius_not_geodetic); geocentric_latitude of a sphere is its radius, and otherwise it is in radians although it takes degrees (geocentricLatitude_sphere); geocentric_radius is wrong for altitudes other than zero (geocentricRadius_pole)."
  },
  {
   "property": "C116",
   "status": "partial",
   "theorems": [
    "Verif.Datum.ned_east_down",
    "Verif.Datum.ned_north",
    "Verif.Datum.ned_sphere"
   ],
   "note": "Real numbers. Proved: east and down are exact away from the poles, north is a unit vector perpendicular to east that points north; for spheres all three are exact. Missing: how far north is from the tangent of the meridian for a spheroid that is not a sphere (the difference quotient is only near it), and the poles (there the step to the east has length zero)."
  },
  {
   "property": "C117",
   "status": "partial",
   "theorems": [
    "Verif.Datum.intersect_spec",
    "Verif.Datum.intersect_zero",
    "Verif.Datum.intersect_behind"
   ],
   "note": "Real numbers. Proved for the whole line: the first point along the direction, zero exactly if the line misses. Refuted for the ray: it may be behind the camera (intersect_behind)."
  },
  {
   "property": "C118",
   "status": "partial",
   "theorems": [
    "Verif.FileIO.get_open",
    "Verif.FileIO.get_far",
    "Verif.FileIO.get_near",
    "Verif.FileIO.get_fails",
    "Verif.FileIO.references_stay_open",
    "Verif.FileIO.get_count",
    "Verif.FileIO.open_bound",
    "Verif.FileIO.get_wrong",
    "Verif.FileIO.none_open"
   ],
   "note": "Refuted: if all images show the box, get_handle may choose one that is already closed and fail although another could be closed, and counts the image as used for ever (get_wrong); if the first file cannot be opened, no file can be had at all (none_open)."
  },
  {
   "property": "C119",
   "status": "proved",
   "theorems": [
    "Verif.Core.Thread.id_unique",
    "Verif.Core.Thread.id_progress",
    "Verif.Core.Thread.lock_holder",
    "Verif.Core.Thread.deadline_spec"
   ],
   "note": "Small-step interleaving model; the counter is not bounded (2^64 threads in the code). Boost sleeps until the deadline by assumption."
  },
  {
   "property": "C12",
   "status": "partial",
   "theorems": [
    "VW.Pool.fifo_dispatch_order",
    "VW.Pool.fifo_start_order_partial",
    "VW.Pool.fifo_start_order_refuted"
   ],
   "note": "Tasks are handed to workers in FIFO order (proved, any number of threads); entry into the task body is in order only with one thread, refuted for two."
  },
  {
   "property": "C120",
   "status": "partial",
   "theorems": [
    "Verif.Camera.Rpc.degree_count",
    "Verif.Camera.Rpc.valid_iff",
    "Verif.Camera.Rpc.pack_eq",
    "Verif.Camera.Rpc.unpack_all",
    "Verif.Camera.Rpc.unpack_valid",
    "Verif.Camera.Rpc.distortion_value",
    "Verif.Camera.Rpc.identity_value",
    "Verif.Camera.Rpc.reset_spec",
    "Verif.Camera.Rpc.increment_spec",
    "Verif.Camera.Rpc.read_write",
    "Verif.Camera.Rpc.read_valid",
    "Verif.Camera.Rpc.read_ignores_leading",
    "Verif.Camera.Rpc.read_negative_degree",
    "Verif.Camera.Rpc.affine_round_trip",
    "Verif.Camera.Rpc.tiny_focal"
   ],
   "note": "Refuted for files not written by the code: the leading numbers of the denominators are dropped unseen (read_ignores_leading), and a negative degree is accepted and kept (read_negative_degree). Numbers are exact, in files too."
  },
  {
   "property": "C121",
   "status": "partial",
   "theorems": [
    "Verif.Camera.Lens.lens_tiny_focal",
    "Verif.Camera.Lens.tsai_formula",
    "Verif.Camera.Lens.tsai_jacobian",
    "Verif.Camera.Lens.tsai_zero",
    "Verif.Camera.Lens.tsai_centre",
    "Verif.Camera.Lens.tsai_scale_free",
    "Verif.Camera.Lens.tsai_scale_wrong",
    "Verif.Camera.Lens.adj_formula",
    "Verif.Camera.Lens.adj_tsai",
    "Verif.Camera.Lens.adj_zero",
    "Verif.Camera.Lens.fov_accepts",
    "Verif.Camera.Lens.fov_undistort_distort",
    "Verif.Camera.Lens.fov_distort_undistort",
    "Verif.Camera.Lens.fov_undistort_wraps",
    "Verif.Camera.Lens.fov_large_flips",
    "Verif.Camera.Lens.fisheye_formula",
    "Verif.Camera.Lens.fisheye_injective",
    "Verif.Camera.Lens.generic_distorted",
    "Verif.Camera.Lens.generic_exact",
    "Verif.Camera.Lens.photo_zero",
    "Verif.Camera.Lens.photo_formula",
    "Verif.Camera.Lens.brown_formula",
    "Verif.Camera.Lens.brown_zero",
    "Verif.Camera.Lens.photo_scale_wrong",
    "Verif.Camera.Lens.read_perm",
    "Verif.Camera.Lens.read_extra",
    "Verif.Camera.Lens.read_write",
    "Verif.Camera.Lens.lens_read_write",
    "Verif.Camera.Lens.tsai_old_file"
   ],
   "note": "Refuted: scale of the Tsai and Photometrix models (tsai_scale_wrong, photo_scale_wrong); field of view undistortion outside the image circle (fov_undistort_wraps) and with parameters above pi, which are accepted (fov_large_flips). Zero parameters of the Brown-Conrady model shift by the principal point (brown_zero). Not proved: accuracy of the Newton inverse of the Tsai and fisheye models away from the centre; the text format of numbers."
  },
  {
   "property": "C122",
   "status": "partial",
   "theorems": [
    "Verif.Geom.Poly.horizEdge_iff",
    "Verif.Geom.Poly.edgeBox_iff",
    "Verif.Geom.Poly.edgesIntersect_complete",
    "Verif.Geom.Poly.edgesIntersect_point",
    "Verif.Geom.Poly.edgesIntersect_parallel",
    "Verif.Geom.Poly.edgesIntersect_gap",
    "Verif.Geom.Poly.inPoly_iff",
    "Verif.Geom.Poly.minPt_spec",
    "Verif.Geom.Poly.minDist_spec",
    "Verif.Geom.Poly.area_shoelace",
    "Verif.Geom.Poly.area_transform",
    "Verif.Geom.Poly.area_reverse",
    "Verif.Geom.Poly.wind_reverse",
    "Verif.Geom.Poly.boxesIntersect_iff",
    "Verif.Geom.Poly.expandBox_spec",
    "Verif.Geom.Poly.expandBox_other",
    "Verif.Geom.Poly.transforms_spec"
   ],
   "note": "Refuted: collinear edges with a gap of up to about 1e-12 of the length are reported to intersect (edgesIntersect_gap; edgesIntersect_parallel is what holds). Exact arithmetic; the winding number is the signed number of crossings of a ray, whose direction does not matter (windRay_eq)."
  },
  {
   "property": "C123",
   "status": "proved",
   "theorems": [
    "Verif.Geom.Poly.cutPoly_in_window",
    "Verif.Geom.Poly.cutPoly_inside",
    "Verif.Geom.Poly.cutPoly_outside",
    "Verif.Geom.Poly.cutPoly_unchanged",
    "Verif.Geom.Poly.cutPoly_contains",
    "Verif.Geom.Poly.cutToHalf_area",
    "Verif.Geom.Poly.cutToHalf_edges",
    "Verif.Geom.Poly.cutToHalf_vertices",
    "Verif.Geom.Poly.cutEdge_spec",
    "Verif.Geom.Poly.windRay_eq",
    "Verif.Geom.Poly.components_spec"
   ],
   "note": "Exact arithmetic. Nothing is said about points on the border of the window or on input edges."
  },
  {
   "property": "C124",
   "status": "proved",
   "theorems": [
    "Verif.Geom.Polys.rep_unique",
    "Verif.Geom.Polys.appendPolygon_rep",
    "Verif.Geom.Polys.appendPolygons_rep",
    "Verif.Geom.Polys.appendRectangle_rep",
    "Verif.Geom.Polys.setPolygon_rep",
    "Verif.Geom.Polys.move_rep",
    "Verif.Geom.Polys.transformMarked_rep",
    "Verif.Geom.Polys.insertVertex_rep",
    "Verif.Geom.Polys.eraseVertex_rep",
    "Verif.Geom.Polys.changeVertex_rep",
    "Verif.Geom.Polys.shiftEdge_rep",
    "Verif.Geom.Polys.shiftOnePoly_rep",
    "Verif.Geom.Polys.shiftMarked_rep",
    "Verif.Geom.Polys.reverse_rep",
    "Verif.Geom.Polys.reverseMarked_rep",
    "Verif.Geom.Polys.extractOne_rep",
    "Verif.Geom.Polys.extractMarked_rep",
    "Verif.Geom.Polys.appendAndShift_rep",
    "Verif.Geom.Polys.eraseMarkedElements_eq",
    "Verif.Geom.Polys.eraseMarked_rep",
    "Verif.Geom.Polys.eraseOne_rep",
    "Verif.Geom.Polys.replaceOne_rep",
    "Verif.Geom.Polys.setAttr_rep"
   ],
   "note": "Exact arithmetic. Rep relates the object to the list of polygons; indices are in range where the code asserts it."
  },
  {
   "property": "C125",
   "status": "partial",
   "theorems": [
    "Verif.Geom.Polys.bdBox_spec",
    "Verif.Geom.Polys.aroundCenter_spec",
    "Verif.Geom.Polys.closestVertex_spec",
    "Verif.Geom.Polys.closestEdge_spec",
    "Verif.Geom.Polys.closestEdge_open",
    "Verif.Geom.Polys.closestAnno_spec"
   ],
   "note": "Refuted for edges of open polygonal lines: the closing edge, which does not exist, is searched as well (closestEdge_open). Exact arithmetic; the square root is any monotone function."
  },
  {
   "property": "C126",
   "status": "partial",
   "theorems": [
    "Verif.Geom.Polys.sort_spec",
    "Verif.Geom.Polys.sort_inside",
    "Verif.Geom.Polys.sortRect_spec",
    "Verif.Geom.Polys.sortRect_clockwise"
   ],
   "note": "Refuted for counter_cc = false: the added rectangle goes counterclockwise and has then itself a negative area (sortRect_clockwise). Exact arithmetic; std::sort is any function that returns a sorted permutation."
  },
  {
   "property": "C127",
   "status": "partial",
   "theorems": [
    "Verif.Geom.Polys.clip_spec",
    "Verif.Geom.Polys.clip_rep",
    "Verif.Geom.Polys.pieces_clipped",
    "Verif.Geom.Polys.mark_spec",
    "Verif.Geom.Polys.mark_eq",
    "Verif.Geom.Polys.eraseBox_spec",
    "Verif.Geom.Polys.cutPoly_beyond",
    "Verif.Geom.Polys.cutPoly_hull"
   ],
   "note": "Proved as stated; partial because for open lines that cross the border of the box only the position in the box, the unchanged and the vanishing cases are proved, not that the pieces are the parts of the line in the box. Exact arithmetic."
  },
  {
   "property": "C128",
   "status": "partial",
   "theorems": [
    "Verif.Geom.Polys.file_roundtrip",
    "Verif.Geom.Polys.cloud_roundtrip",
    "Verif.Geom.Polys.file_opens",
    "Verif.Geom.Polys.file_after_empty",
    "Verif.Geom.Polys.file_blank",
    "Verif.Geom.Polys.file_not_idempotent"
   ],
   "note": "Refuted: a closed polygon comes back open (file_opens) unless its first vertex is repeated, and a round trip can drop a further vertex (file_not_idempotent); after a polygon that has become empty, the following ones are written with the vertices of others (file_after_empty); with empty lines as separators all are read as one polygon (file_blank). A line of the file is modelled by what is read from it: the text of numbers, colors and layers is not modelled."
  },
  {
   "property": "C129",
   "status": "partial",
   "theorems": [
    "VW.IPMatch.l2_spec",
    "VW.IPMatch.l2_metric",
    "VW.IPMatch.hammingWide_spec",
    "VW.IPMatch.hamming_metric_spec",
    "VW.IPMatch.oriDiff_spec",
    "VW.IPMatch.oriDiff_degrees",
    "VW.IPMatch.scaleOri_spec",
    "VW.IPMatch.position_spec"
   ],
   "note": "Refuted for orientations in degrees, which the points taken from OpenCV have: the angle is wrapped by 2 pi once (oriDiff_degrees). RelativeEntropyMetric is not modelled. Exact arithmetic, little endian, descriptors of equal length."
  },
  {
   "property": "C13",
   "status": "proved",
   "theorems": [
    "VW.Pool.join_returns_idle",
    "VW.Pool.join_returns_all_finished",
    "VW.Pool.join_blocks_while_running",
    "VW.Pool.join_blocks_while_queued",
    "VW.Pool.join_all_terminates"
   ],
   "note": "Safety and liveness (under any schedule; tasks assumed to terminate without throwing)."
  },
  {
   "property": "C130",
   "status": "partial",
   "theorems": [
    "VW.IPMatch.indices_spec",
    "VW.IPMatch.indices_length",
    "VW.IPMatch.pairs_spec",
    "VW.IPMatch.pairs_undefined",
    "VW.IPMatch.pairs_misaligned",
    "VW.IPMatch.simpleIndex_spec",
    "VW.IPMatch.simpleMatch_spec",
    "VW.IPMatch.simple_ambiguous"
   ],
   "note": "Refuted if a constraint rejects the nearest point of some point: it gets no entry in the index list, so the list is too short, later points are paired with matches of others and the end of the list is read (indices_length, pairs_undefined, pairs_misaligned); likewise if the second list is empty. The simple matcher matches a point with one of two identical descriptors (simple_ambiguous) and ignores its constraint. The FLANN search is a parameter."
  },
  {
   "property": "C131",
   "status": "partial",
   "theorems": [
    "VW.IPMatch.removeDuplicates_spec",
    "VW.IPMatch.removeDuplicates_throws",
    "VW.IPMatch.removeDuplicates_idem",
    "VW.IPMatch.lessThan_iff",
    "VW.IPMatch.lessThan_weak_order",
    "VW.IPMatch.sort_unique",
    "VW.IPMatch.sort_not_unique",
    "VW.IPMatch.cropReal_spec",
    "VW.IPMatch.cropInt_spec",
    "VW.IPMatch.cropInt_negative",
    "VW.IPMatch.removeNearNodata_spec",
    "VW.IPMatch.removeNearNodata_undefined",
    "VW.IPMatch.removeNearNodata_below",
    "VW.IPMatch.pickPairs_spec"
   ],
   "note": "Refuted: points that differ in the descriptor only have no unique order (sort_not_unique); an integer box takes in points left of it by less than 1 if it begins at 0 (cropInt_negative); removing the first point of the list decrements an iterator at the beginning (removeNearNodata_undefined); pixels below nodata count as data (removeNearNodata_below). Exact arithmetic, no NaN."
  },
  {
   "property": "C132",
   "status": "partial",
   "theorems": [
    "VW.CDF.run_inv",
    "VW.CDF.quantile_spec",
    "VW.CDF.first_batch_exact",
    "VW.CDF.quantile_unmerged",
    "VW.CDF.few_quantiles"
   ],
   "note": "Proved as stated for at least 32 quantiles (251 is the default). Refuted below: with nine, the probabilities at the start do not increase and the merge reads outside of the samples (few_quantiles). Samples still in the buffer are ignored by quantile; before the first merge it returns 0 (quantile_unmerged). approximate_mean and approximate_stddev are not modelled. Exact arithmetic."
  },
  {
   "property": "C133",
   "status": "partial",
   "theorems": [
    "VW.FillHoles.raster_transparent",
    "VW.FillHoles.filled_iff",
    "VW.FillHoles.filled_bounds",
    "VW.FillHoles.filled_plane",
    "VW.FillHoles.smoothed_spec",
    "VW.FillHoles.raster_spec",
    "VW.FillHoles.smoothing_depends_on_tiles"
   ],
   "note": "Proved as stated, for any tile, except: with smoothing the values depend on the tiles (smoothing_depends_on_tiles; which pixels are filled and the range of their values do not). One channel, exact numbers; the kernels are any positive weights."
  },
  {
   "property": "C134",
   "status": "partial",
   "theorems": [
    "VW.Sphere.growPoint_spec",
    "VW.Sphere.growAll_contains",
    "VW.Sphere.growPoint_not_smallest",
    "VW.Sphere.growSphere_spec"
   ],
   "note": "Containment is proved for points. Refuted: the sphere grown is never the smallest, its radius is too large by the old radius (growPoint_not_smallest). Growing to a sphere covers it exactly if its radius is at most the distance of the centers plus twice the own radius; a sphere with the same center is ignored (growSphere_spec). Exact real arithmetic in any inner product space."
  },
  {
   "property": "C135",
   "status": "partial",
   "theorems": [
    "VW.Sphere.containsSphere_iff",
    "VW.Sphere.intersects_iff",
    "VW.Sphere.crop_spec",
    "VW.Sphere.crop_empty",
    "VW.Sphere.crop_enlarges",
    "VW.Sphere.motions",
    "VW.Sphere.emptiness"
   ],
   "note": "Proved except: cropping to an empty sphere changes nothing (crop_empty); crop may give a sphere larger than the own one (crop_enlarges); a sphere contracted by more than its radius or scaled by a negative number contains nothing and is not said to be empty, and converting an empty sphere to another type makes it non-empty (emptiness)."
  },
  {
   "property": "C136",
   "status": "proved",
   "theorems": [
    "VW.Erode.pixel_eq",
    "VW.Erode.create_spec",
    "VW.Erode.history_spec",
    "VW.Erode.raster_eq"
   ],
   "note": "Blobs as in C52 (decompress gives their pixels); runs are not empty, as in every blob that the library makes. Columns do not overflow. The mask shared between copies of a view is not modelled."
  },
  {
   "property": "C137",
   "status": "partial",
   "theorems": [
    "VW.Sparse.View.pixel_eq",
    "VW.Sparse.insert_spec",
    "VW.Sparse.absorb_spec",
    "VW.Sparse.absorbAll_spec",
    "VW.Sparse.overlap_lost"
   ],
   "note": "Proved for patches that do not overlap, and that stored pixels never change. A strip is refused exactly if it overlaps and some strip of the row ends at its end or later (insert_spec): one that reaches farther right than all others is accepted, and part of it is lost (overlap_lost). After an exception the state is not modelled (rows before may have been absorbed). Columns do not overflow."
  },
  {
   "property": "C138",
   "status": "proved",
   "theorems": [
    "VW.NoData.average_spec",
    "VW.NoData.average_isSome",
    "VW.NoData.average_bounds",
    "VW.NoData.avgRaster_eq",
    "VW.NoData.accepted_iff",
    "VW.NoData.accepted_half"
   ],
   "note": "One channel of exact numbers; integer pixel types truncate the mean."
  },
  {
   "property": "C139",
   "status": "proved",
   "theorems": [
    "VW.NoData.passAt_spec",
    "VW.NoData.passAt_bounds",
    "VW.NoData.passAt_negative",
    "VW.NoData.passes_keep",
    "VW.NoData.passes_size",
    "VW.NoData.passes_bounds",
    "VW.NoData.passes_reach"
   ],
   "note": "Exact numbers; the power is a parameter with values that are not negative (rounding and infinite powers are not modelled)."
  },
  {
   "property": "C14",
   "status": "partial",
   "theorems": [
    "VW.Pool.kill_and_join_hangs",
    "VW.Pool.no_join_after_quit",
    "VW.Pool.kill_and_join_terminates_partial"
   ],
   "note": "Refuted when a task is queued; proved when the queue is empty."
  },
  {
   "property": "C140",
   "status": "partial",
   "theorems": [
    "VW.Inpaint.prerasterize_spec",
    "VW.Inpaint.task_spec",
    "VW.Inpaint.newValue_default",
    "VW.Inpaint.newValue_bounds",
    "VW.Inpaint.newValue_dot",
    "VW.Inpaint.processed_iff",
    "VW.Inpaint.right_edge_not_filled",
    "VW.Inpaint.hole_values_matter"
   ],
   "note": "Proved: nothing outside of blobs changes, blobs one pixel from the left and top and two from the right and bottom edges are filled, no dependence on tiles. Refuted: a blob one pixel away from the right or bottom edge is not filled (right_edge_not_filled); with grassfire the pixels in the hole count too: the bounds include them (newValue_bounds), and they matter (hole_values_matter), except for holes of one pixel (newValue_dot). Exact numbers, one channel; FillHolesGrass (which makes an index per tile) is not modelled."
  },
  {
   "property": "C141",
   "status": "partial",
   "theorems": [
    "VW.Parabola.collect_spec",
    "VW.Parabola.fit_least",
    "VW.Parabola.fit_exact",
    "VW.Parabola.offset_flat",
    "VW.Parabola.offset_lowest",
    "VW.Parabola.refine_spec",
    "VW.Parabola.refine_flat",
    "VW.Parabola.refine_exact",
    "VW.Parabola.refine_saddle",
    "VW.Parabola.refine_far",
    "VW.Parabola.findPeak_spec",
    "VW.Parabola.findPeak_exact"
   ],
   "note": "Proved: the nine costs are the right ones (for a zone whose range has the disparity; zones are C64/C65), the fit is the one of least squares and exact for surfaces, the result is at the lowest point if there is one less than 5 pixels away. Refuted: the surface may be a saddle or a maximum, and its flat point is used all the same (refine_saddle); the lowest point may be more than a pixel away (refine_far, up to 5 pixels are accepted). Reals without rounding; the images and their filters are not modelled; erf is a parameter."
  },
  {
   "property": "C142",
   "status": "proved",
   "theorems": [
    "VW.Parabola.next_spec",
    "VW.Parabola.advance_spec"
   ],
   "note": "For boxes of at least one column; places of the box must be in the mask."
  },
  {
   "property": "C143",
   "status": "partial",
   "theorems": [
    "VW.Composite.build_spec",
    "VW.Composite.prepare_spec",
    "VW.Composite.prepareIn_spec",
    "VW.Composite.prepare_twice",
    "VW.Composite.sparseCheck_iff"
   ],
   "note": "All proved but the last sentence, which is refuted: prepare_twice shows that a second call changes the places unless the mosaic begins at (0, 0). Integers without overflow."
  },
  {
   "property": "C144",
   "status": "partial",
   "theorems": [
    "VW.Composite.mask_iff",
    "VW.Composite.masks_partition",
    "VW.Composite.fire_pos",
    "VW.Composite.masks_of_alphas",
    "VW.Composite.thin_source_lost"
   ],
   "note": "Proved for any sources in terms of their distances (mask_iff, masks_partition), and in terms of their alphas for sources of at least two columns and rows (masks_of_alphas, through C50). Refuted for thinner sources: their masks are empty (thin_source_lost). The files the masks are written to are not modelled; distances are whole numbers without overflow or rounding to float (exact below 2^24)."
  },
  {
   "property": "C145",
   "status": "proved",
   "theorems": [
    "VW.Composite.draft_spec",
    "VW.Composite.draft_patches_agree",
    "VW.Composite.draftAt_spec",
    "VW.Composite.stack_opaque",
    "VW.Composite.stack_hides",
    "VW.Composite.stack_transparent",
    "VW.Composite.stack_alpha",
    "VW.Composite.sparse_black"
   ],
   "note": "For channels that are rational numbers with maximum 1 (float pixels without rounding)."
  },
  {
   "property": "C146",
   "status": "partial",
   "theorems": [
    "VW.Composite.levels_suffice",
    "VW.Composite.crop_inside",
    "VW.Composite.listed_of_feeds",
    "VW.Composite.listed_of_meets",
    "VW.Composite.reduce_spec",
    "VW.Composite.smooth_outside",
    "VW.Composite.last_column_repeated",
    "VW.Composite.blend_depends_on_patch",
    "VW.Composite.alphaAt_spec",
    "VW.Composite.maskSum_spec"
   ],
   "note": "Proved: the levels suffice, all sources that have a part by smoothing are listed, a reduced image has the smoothed values wherever its kernel touches the image, the greatest alpha. Refuted: the last column of a reduced image is repeated (last_column_repeated), so that the sum of the masks at a pixel differs between patches (blend_depends_on_patch). The colours of the pyramids (differences, enlargement, division by the sum of masks) are not modelled."
  },
  {
   "property": "C147",
   "status": "partial",
   "theorems": [
    "VW.DiskPyr.make_spec",
    "VW.DiskPyr.make_refuses",
    "VW.DiskPyr.size_near",
    "VW.DiskPyr.size_pos",
    "VW.DiskPyr.empty_level",
    "VW.DiskPyr.overwrite_iff"
   ],
   "note": "All proved, but that each level has a pixel: true for factor 2 (size_pos), refuted for every greater factor by an image of one column (empty_level). The factor 1/subsample is exact; the pixels of the levels are not modelled."
  },
  {
   "property": "C148",
   "status": "partial",
   "theorems": [
    "VW.DiskPyr.pyramidLevel_spec",
    "VW.DiskPyr.scales_increase",
    "VW.DiskPyr.clip_scale",
    "VW.DiskPyr.clip_pixels",
    "VW.DiskPyr.clip_aligned",
    "VW.DiskPyr.clip_misses"
   ],
   "note": "Proved: the level and the scale; exactly which pixels are in the clip (those whose last column and row at full resolution are in the region); for regions that end at multiples of the scale everything is covered (as far as the level goes). Refuted in general: the last columns and rows of a region may be missed, and a region smaller than the scale may give an empty clip (clip_misses)."
  },
  {
   "property": "C149",
   "status": "proved",
   "theorems": [
    "VW.DiskPyr.steps_mem",
    "VW.DiskPyr.steps_few",
    "VW.DiskPyr.samples_mem",
    "VW.DiskPyr.bounds_spec"
   ],
   "note": "Doubles are rational numbers without rounding, NaN is a pixel without a value."
  },
  {
   "property": "C15",
   "status": "partial",
   "theorems": [
    "VW.Pool.ordered_dispatch_order",
    "VW.Pool.ordered_no_gap",
    "VW.Pool.ordered_start_order_partial",
    "VW.Pool.ordered_start_order_refuted",
    "VW.Pool.ordered_completes",
    "VW.Pool.ordered_stale_blocks",
    "VW.Pool.ordered_latest_wins"
   ],
   "note": "Hand-out order and completeness proved; the order of entry into the tasks is refuted for two threads."
  },
  {
   "property": "C150",
   "status": "proved",
   "theorems": [
    "VW.Census.binary_codes",
    "VW.Census.ternary_codes",
    "VW.Census.patterns",
    "VW.Census.binaryCode_unique",
    "VW.Census.binary_invariant"
   ],
   "note": "The pictures in the comments are the specification of the patterns of 32 pixels."
  },
  {
   "property": "C151",
   "status": "partial",
   "theorems": [
    "VW.Census.cost_binary_spec",
    "VW.Census.cost_ternary_spec_partial",
    "VW.Census.cost_ternary5",
    "VW.Census.ternary5_misses",
    "VW.Census.costOf_other",
    "VW.Census.costBuffer_spec"
   ],
   "note": "Proved for all binary kernels and ternary 3, 7, 9. Refuted for ternary 5x5: the code of 48 bits is put into an image of 32 bits, so only 16 of the 24 pixels count (cost_ternary5 is exact; ternary5_misses: five pixels differ, the cost is 0)."
  },
  {
   "property": "C152",
   "status": "proved",
   "theorems": [
    "VW.Otsu.between_spec",
    "VW.Otsu.otsu_spec",
    "VW.Otsu.otsu_range"
   ],
   "note": "Doubles are rational numbers without rounding: with rounding, equal variances may not compare equal and the mean index is then that of fewer places."
  },
  {
   "property": "C153",
   "status": "partial",
   "theorems": [
    "VW.Otsu.samples_spec",
    "VW.Otsu.samples_one",
    "VW.Otsu.otsuSampled_spec",
    "VW.Otsu.same_iff",
    "VW.Otsu.versions_differ"
   ],
   "note": "Proved: the samples; up to 2^23 samples the result is the level at the first best place to split; the two versions agree exactly if there is only one best place. Refuted: for an image of two values the first version gives 127/255 of the range, the second one the lower value (versions_differ); one sample row or column is undefined (samples_one)."
  },
  {
   "property": "C154",
   "status": "proved",
   "theorems": [
    "VW.Otsu.u8_spec",
    "VW.Otsu.stretch_mono",
    "VW.Otsu.percentileBounds_spec",
    "VW.Otsu.percentileConvert_spec",
    "VW.Otsu.mostly_one_value"
   ],
   "note": "Floating-point pixels, all valid, exact arithmetic. If both percentiles fall in one bin (for example when 98 percent of the pixels have the least value), the image becomes all 0 (mostly_one_value)."
  },
  {
   "property": "C155",
   "status": "proved",
   "theorems": [
    "VW.Peaks.findPeaks_spec",
    "VW.Peaks.maxima_apart",
    "VW.Peaks.no_peaks"
   ],
   "note": "Interest values are elements of a linear order (no NaN)."
  },
  {
   "property": "C156",
   "status": "partial",
   "theorems": [
    "VW.Peaks.findPeaks3_throw",
    "VW.Peaks.findPeaks3_spec_partial",
    "VW.Peaks.scale_diagonal_missed",
    "VW.Peaks.sigma_octave",
    "VW.Peaks.octave_spec",
    "VW.Peaks.scale_is_blur",
    "VW.Peaks.scale_roundtrip",
    "VW.Peaks.not_closest"
   ],
   "note": "Refuted: only the same pixel in the planes below and above is compared, so a reported point may be less than a pixel beside it in the next plane (scale_diagonal_missed; the code has a TODO); scale_to_plane_index cuts instead of rounding (not_closest). Proved: exactly the points extreme among these ten neighbours are found; the blur of all planes of all octaves. Blurs are followed by their sigmas (adding in quadrature, subsampling halves), in exact arithmetic."
  },
  {
   "property": "C157",
   "status": "partial",
   "theorems": [
    "VW.Window.stdDev_spec_partial",
    "VW.Window.stdDev_odd_partial",
    "VW.Window.stdDev_tile",
    "VW.Window.high_window_undefined",
    "VW.Window.invalid_poisons",
    "VW.Window.invalid_drops_valid"
   ],
   "note": "Proved for images without invalid pixels and windows of odd height not higher than wide; for an even width the window lies to the right. Refuted: windows higher than wide read outside of the copied region (high_window_undefined); an invalid pixel takes the oldest value out of the window, giving NaN or wrong values (invalid_poisons, invalid_drops_valid). Not treated: even heights. Exact arithmetic, squares of the deviations."
  },
  {
   "property": "C158",
   "status": "proved",
   "theorems": [
    "VW.Window.medianAt_spec",
    "VW.Window.medianTile_eq",
    "VW.Window.one_pixel_throws"
   ],
   "note": "For windows of at least two pixels; with a 1x1 window an invalid pixel makes the filter throw (one_pixel_throws). The product with 0.9 is exact."
  },
  {
   "property": "C159",
   "status": "proved",
   "theorems": [
    "VW.Dist.boundedDist_spec"
   ],
   "note": "Distances are real numbers (exact arithmetic)."
  },
  {
   "property": "C16",
   "status": "proved",
   "theorems": [
    "VW.TQueue.tqueue_fifo",
    "VW.TQueue.tqueue_popped_sublist",
    "VW.TQueue.tqueue_wakes",
    "VW.TQueue.tqueue_pop_front"
   ],
   "note": ""
  },
  {
   "property": "C160",
   "status": "proved",
   "theorems": [
    "VW.Dist.boundedSignedDist_spec",
    "VW.Dist.signed_sign"
   ],
   "note": "Distances are real numbers (exact arithmetic)."
  },
  {
   "property": "C161",
   "status": "partial",
   "theorems": [
    "VW.Spline.make_spec",
    "VW.Spline.eval_spec_partial",
    "VW.Spline.through_points",
    "VW.Spline.smooth",
    "VW.Spline.prime_at_points_partial",
    "VW.Spline.prime_iff",
    "VW.Spline.prime_wrong_between",
    "VW.Spline.closed_end_undefined"
   ],
   "note": "Refuted: prime is the derivative at the control points only (prime_at_points_partial), and differs between them unless the chords continue with one velocity (prime_iff, prime_wrong_between); a closed curve at its greatest parameter reads past the end of its knots (closed_end_undefined). Proved: everything else, for the closed curve below its end. Exact real arithmetic; the moves of the points within the vector are not followed."
  },
  {
   "property": "C162",
   "status": "partial",
   "theorems": [
    "VW.Orient.fit_vertex",
    "VW.Orient.parabola_exists",
    "VW.Orient.fit_strict",
    "VW.Orient.fitPeak_peak",
    "VW.Orient.fitPeak_frame",
    "VW.Orient.fitPeak_rejected",
    "VW.Orient.fitPeak_outside",
    "VW.Orient.fitPeakScale_peak",
    "VW.Orient.flat_nan",
    "VW.Orient.rejected_but_moved"
   ],
   "note": "Refuted: in a flat neighbourhood the point is accepted with NaN as position (flat_nan); a point rejected for its scale has been moved already (rejected_but_moved); points at the border are read outside of the image (fitPeak_outside). Everything else proved, in exact arithmetic; the conversions between scale and plane are parameters (C156)."
  },
  {
   "property": "C163",
   "status": "partial",
   "theorems": [
    "VW.Orient.weightedHistogram_spec_partial",
    "VW.Orient.inBin_unique",
    "VW.Orient.below_counted",
    "VW.Orient.interpolation_wrong",
    "VW.Orient.share_wrong",
    "VW.Orient.interpolate_sum",
    "VW.Orient.pi_outside",
    "VW.Orient.only_centre",
    "VW.Orient.nonMax_spec",
    "VW.Orient.filter_wrap",
    "VW.Orient.filter_plain",
    "VW.Orient.filter_even",
    "VW.Orient.filter_wrap_outside",
    "VW.Orient.filter_wrap_sum",
    "VW.Orient.modes_spec_partial",
    "VW.Orient.modes_empty",
    "VW.Orient.low_mode_reported",
    "VW.Orient.equal_mode_missed"
   ],
   "note": "Refuted: values up to one and a half bins below the range are counted in the first bin (below_counted); shares of orientations are right in a single bin only (interpolation_wrong) and an orientation of pi is written past the end (pi_outside); the histogram of a region uses its centre only (only_centre); a wrapped kernel reaching farther than the vector reads outside (filter_wrap_outside); modes are compared with the number of the first bin instead of its value and the second one is given four times (modes_spec_partial, low_mode_reported, equal_mode_missed). Proved: everything else. Exact arithmetic; the Gaussian kernels are not modelled."
  },
  {
   "property": "C164",
   "status": "partial",
   "theorems": [
    "VW.VecUtil.formBasis_spec_partial",
    "VW.VecUtil.up_nan",
    "VW.VecUtil.planeTangents_spec_partial",
    "VW.VecUtil.tangents_not_perpendicular"
   ],
   "note": "Refuted: for vectors along an axis formBasis gives NaN, exactly for these (formBasis_spec_partial, up_nan); the tangents are perpendicular to each other only for normals in a vertical coordinate plane (tangents_not_perpendicular). Everything else proved, in exact real arithmetic; the tangents are independent."
  },
  {
   "property": "C165",
   "status": "partial",
   "theorems": [
    "VW.VecUtil.round_nearest",
    "VW.VecUtil.nearest_unique",
    "VW.VecUtil.roundAndClamp_spec",
    "VW.VecUtil.clamp_64"
   ],
   "note": "Proved for all types whose limits are exact as double (8, 16, 32 bits). Refuted for 64 bits: the upper limit is rounded up, so great values are converted out of range (clamp_64). NaN is not treated."
  },
  {
   "property": "C166",
   "status": "proved",
   "theorems": [
    "VW.BoxFilter.view_spec",
    "VW.BoxFilter.obalog_centred",
    "VW.BoxFilter.interest_spec",
    "VW.BoxFilter.obalog_borders",
    "VW.BoxFilter.interest_transpose",
    "VW.BoxFilter.interest_flat",
    "VW.BoxFilter.not_centred_outside"
   ],
   "note": "One plane, exact arithmetic. Boxes that are not centred are read outside of the image (not_centred_outside); none are made by the library."
  },
  {
   "property": "C167",
   "status": "proved",
   "theorems": [
    "VW.Linescan.findPerpVecs_spec",
    "VW.Linescan.unit_eq",
    "VW.Linescan.err_zero"
   ],
   "note": "Exact real arithmetic. For unit pixel directions and both rays on the same side as the ray of the guess; a pixel looking the opposite way is excluded by this."
  },
  {
   "property": "C168",
   "status": "partial",
   "theorems": [
    "VW.Bayer.recorded_partial",
    "VW.Bayer.uniform_partial",
    "VW.Bayer.bounded",
    "VW.Bayer.moved",
    "VW.Bayer.dark_edge"
   ],
   "note": "Refuted as stated: the result is the image moved by one pixel left and up (moved), and the last two columns and rows are averaged with zeros (dark_edge). Proved up to this move and away from these borders. Channels are integers whose sums do not overflow."
  },
  {
   "property": "C169",
   "status": "partial",
   "theorems": [
    "VW.MatText.read_write_partial",
    "VW.MatText.read_spec",
    "VW.MatText.empty_lost",
    "VW.MatText.nan_lost",
    "VW.MatText.blank_line",
    "VW.MatText.image_back",
    "VW.MatText.digits_faithful"
   ],
   "note": "Proved for matrices with rows and columns and values that >> reads back as << printed them (a hypothesis on the number format, shown to be met by an example). Refuted: matrices without rows or columns cannot be read (empty_lost), values such as nan silently end their row (nan_lost), a blank line at the end throws (blank_line)."
  },
  {
   "property": "C17",
   "status": "proved",
   "theorems": [
    "VW.Log.latest_rule_decides",
    "VW.Log.default_rules",
    "VW.Log.rejected_rule_ignored"
   ],
   "note": "The default for 'console' compares the namespace case-sensitively although rules are case-insensitive."
  },
  {
   "property": "C170",
   "status": "partial",
   "theorems": [
    "VW.Paths.makeRelative_spec_partial",
    "VW.Paths.makeRelative_inside",
    "VW.Paths.dir_wrong",
    "VW.Paths.prefix_spec_partial",
    "VW.Paths.prefix_dir",
    "VW.Paths.filesWithPrefix_spec_partial",
    "VW.Paths.prefix_is_dir",
    "VW.Paths.filesWithExt_spec"
   ],
   "note": "Posix paths as Boost iterates over them, no symbolic links. Refuted: directories with \".\", \"..\" or a slash at the end give a wrong path (dir_wrong); the dot of a directory is taken for an extension (prefix_dir); a prefix that names a directory too finds other files (prefix_is_dir)."
  },
  {
   "property": "C171",
   "status": "partial",
   "theorems": [
    "VW.Surface.fill_iff",
    "VW.Surface.fill_sound_partial",
    "VW.Surface.not_flood",
    "VW.Surface.false_not_zero",
    "VW.Surface.block_sound",
    "VW.Surface.block_loses"
   ],
   "note": "Refuted as stated: ways that go up and then down again are not followed (not_flood), a value for false other than 0 marks too much (false_not_zero), blocks lose pixels (block_loses). Proved: exactly what is marked, for all images (fill_iff); all of it is in the flood fill; a block marks nothing that the whole image would not (block_sound)."
  },
  {
   "property": "C172",
   "status": "proved",
   "theorems": [
    "VW.Surface.normal_spec",
    "VW.Surface.plane_normal",
    "VW.Surface.border_flat",
    "VW.Surface.shade_spec"
   ],
   "note": "Exact real arithmetic. For maps with north up (scales of opposite sign) the normals point down. In the last column and row the slope across the border counts as 0. Of do_hillshade only the normals and the shading are modelled, not reading, the choice of the light vector, blurring and writing."
  },
  {
   "property": "C173",
   "status": "proved",
   "theorems": [
    "VW.Surface.meanFill_spec",
    "VW.Surface.meanFill_bounds"
   ],
   "note": "Exact arithmetic, channel by channel; alphas not negative. At the border pixels of the image count again for neighbours outside (constant extension), which is what the code does."
  },
  {
   "property": "C174",
   "status": "partial",
   "theorems": [
    "VW.Colormap.colorAt_spec",
    "VW.Colormap.populate_spec_partial",
    "VW.Colormap.round_near",
    "VW.Colormap.below_first",
    "VW.Colormap.one_key",
    "VW.Colormap.skipped_counts",
    "VW.Colormap.last_line_lost"
   ],
   "note": "Exact arithmetic, channel by channel. Proved for all maps and all lists of plain numbers with two different keys. Refuted: values below the first key (percentages from above 0) step before the first entry (below_first); a file of one key divides by 0 (one_key); a skipped line still counts as key 0 (skipped_counts); the last line of a file without an end of line is lost (last_line_lost). The splitting of lines and the built-in tables are not modelled."
  },
  {
   "property": "C175",
   "status": "proved",
   "theorems": [
    "VW.Opacity.nonzeroBox_spec",
    "VW.Opacity.nonzeroBox_least",
    "VW.Opacity.allPx_spec"
   ],
   "note": "Proved for images of all sizes. The choice by pixel type (images without alpha) is not modelled."
  },
  {
   "property": "C176",
   "status": "proved",
   "theorems": [
    "VW.Pose.relativeOrientation_spec",
    "VW.Pose.relativeOrientation_exact",
    "VW.Pose.quarter_solves",
    "VW.Pose.quarter_found"
   ],
   "note": "Exact arithmetic. The solver (LAPACK) is a parameter: hypothesis is that it gives unit eigenvectors and misses no eigenvalue. The check of the sizes is not modelled (pairs)."
  },
  {
   "property": "C177",
   "status": "proved",
   "theorems": [
    "VW.DatumCheck.check_spec",
    "VW.DatumCheck.check_comm"
   ],
   "note": "Exact arithmetic; the text of the message is not modelled."
  },
  {
   "property": "C18",
   "status": "proved",
   "theorems": [
    "VW.Log.wildcard_semantics",
    "VW.Log.accepted_iff"
   ],
   "note": ""
  },
  {
   "property": "C19",
   "status": "proved",
   "theorems": [
    "VW.BBox.crop_is_intersection",
    "VW.BBox.intersects_iff",
    "VW.BBox.containsBox_subset",
    "VW.BBox.containsBox_iff_int",
    "VW.BBox.containsBox_iff_dense",
    "VW.BBox.empty_iff_no_point"
   ],
   "note": "All dimensions, any linear order; no rounding."
  },
  {
   "property": "C20",
   "status": "partial",
   "theorems": [
    "VW.BBox.grow_least",
    "VW.BBox.grow_order_irrelevant",
    "VW.BBox.growBox_least",
    "VW.BBox.grow_default_least",
    "VW.BBox.grow_default_point",
    "VW.BBox.grow_default_out_of_range",
    "VW.BBox.grow_degenerate_lost"
   ],
   "note": "Proved for points within +-(2^31-2) and for growing by non-empty boxes. Two parts of the English claim are false of the code and refuted: points beyond the sentinel range (grow_default_out_of_range) and growing by a box that holds a single point, which grow(bbox) skips (grow_degenerate_lost)."
  },
  {
   "property": "C21",
   "status": "partial",
   "theorems": [
    "VW.BBox.default_neutral",
    "VW.BBox.default_uint32_not_empty"
   ],
   "note": "Proved for signed and floating coordinates; refuted for BBox<uint32>: the default box wraps around and is not empty."
  },
  {
   "property": "C22",
   "status": "proved",
   "theorems": [
    "VW.BBox.translate_mem",
    "VW.BBox.translate_cancel",
    "VW.BBox.expand_mem",
    "VW.BBox.contract_expand",
    "VW.BBox.scale_mem",
    "VW.BBox.scale_div_cancel",
    "VW.BBox.elemProd_mem",
    "VW.BBox.extent_laws",
    "VW.BBox.area_laws",
    "VW.BBox.empty_unchanged"
   ],
   "note": "Exact arithmetic over any ordered ring/field; overflow and rounding are not modelled. contract undoes expand for a non-negative offset."
  },
  {
   "property": "C23",
   "status": "proved",
   "theorems": [
    "VW.BBox.growToInt_encloses",
    "VW.BBox.growToInt_empty"
   ],
   "note": "Over any ordered field with floor; boxes within int32, casts exact."
  },
  {
   "property": "C24",
   "status": "proved",
   "theorems": [
    "VW.Block.blocks_disjoint_inside",
    "VW.Block.blocks_cover",
    "VW.Block.blocks_terminate",
    "VW.Block.blocks_returns"
   ],
   "note": "All boxes (negative, empty, inverted), block sizes, thread counts >= 1 and schedules; integers unbounded. Termination assumes the functor returns."
  },
  {
   "property": "C25",
   "status": "proved",
   "theorems": [
    "VW.Block.block_in_one_cell",
    "VW.Block.block_index_right",
    "VW.Block.lookup_exact",
    "VW.Block.empty_width_index_out_of_range"
   ],
   "note": "For non-empty boxes. A zero-width request at the right edge yields an out-of-range block index (empty_width_index_out_of_range)."
  },
  {
   "property": "C26",
   "status": "proved",
   "theorems": [
    "VW.Block.block_cache_transparent",
    "VW.Block.block_rasterize_transparent",
    "VW.Block.rasterize_safe",
    "VW.Block.rasterize_transparent",
    "VW.Block.prerasterize_transparent",
    "VW.Block.read_transparent",
    "VW.Block.read_total"
   ],
   "note": "Composed with the cache model (call-atomic cache calls), pixel-level interleaving of threads and arbitrary cache calls by others. The child image is a fixed function; its own rasterize is modelled by its contract. Boxes within the image."
  },
  {
   "property": "C27",
   "status": "partial",
   "theorems": [
    "VW.Edge.eval_inside_partial",
    "VW.Edge.zero_spec",
    "VW.Edge.value_spec",
    "VW.Edge.constant_spec",
    "VW.Edge.periodic_spec",
    "VW.Edge.cylindrical_spec",
    "VW.Edge.reflect_spec_partial",
    "VW.Edge.linear_spec_partial",
    "VW.Edge.linear_exact_on_affine",
    "VW.Edge.linear_inside",
    "VW.Edge.periodic_unique",
    "VW.Edge.mirrored_unique",
    "VW.Edge.view_read",
    "VW.Edge.reflect_one_pixel_undefined",
    "VW.Edge.linear_one_column_undefined"
   ],
   "note": "All modes, sizes and coordinates, exact arithmetic. Missing: the property is false of the code for reflect on an image one pixel wide or high (division by zero) and for linear on one (reads outside), proved as such; otherwise complete."
  },
  {
   "property": "C28",
   "status": "partial",
   "theorems": [
    "VW.Edge.sourceBBox_in_image_partial",
    "VW.Edge.sourceBBox_enough_partial",
    "VW.Edge.prerasterize_read_partial",
    "VW.Edge.prerasterize_total_partial",
    "VW.Edge.linear_one_column_source_outside"
   ],
   "note": "All modes and non-empty boxes, images with at least 2 columns and rows for reflect and linear, at least one pixel otherwise. Missing: false for linear on one-column images (proved)."
  },
  {
   "property": "C29",
   "status": "proved",
   "theorems": [
    "VW.Graph.find_iff_connected",
    "VW.Graph.find_representative",
    "VW.Graph.find_changes_nothing",
    "VW.Graph.find_total",
    "VW.Graph.find_compresses",
    "VW.Graph.combine_rejects",
    "VW.Graph.insertIn_rejects",
    "VW.Graph.null_rejects",
    "VW.Graph.combine_null_right",
    "VW.Graph.valid_iff_own_find",
    "VW.Graph.combine_result",
    "VW.Graph.findVal_spec",
    "VW.Graph.never_hangs",
    "VW.Graph.exHist"
   ],
   "note": "All histories of insert, insert-into-set, combine, find and find-by-value. Dangling pointers are undefined behaviour (response ub) and excluded. Unbounded ranks."
  },
  {
   "property": "C30",
   "status": "partial",
   "theorems": [
    "VW.Graph.mst_minimal_partial",
    "VW.Graph.mst_minimal_nonneg_partial",
    "VW.Graph.mst_ctor_may_reject",
    "VW.Graph.mst_ctor_empty_unchecked"
   ],
   "note": "Full property for every non-empty edge list, for any result of qsort with the cost comparison, costs in any ordered additive monoid (no NaN, exact sums), on the assumption that the uninitialised member tested by the constructor happens to be positive. Missing: without that assumption the constructor may throw (mst_ctor_may_reject), proved as such."
  },
  {
   "property": "C31",
   "status": "proved",
   "theorems": [
    "VW.Line.visits_exactly",
    "VW.Line.starts_and_stops",
    "VW.Line.near_line",
    "VW.Line.inside_box",
    "VW.Line.reversed_line_drops_start"
   ],
   "note": "All integer end points. Integers are unbounded (int32 in the code). reversed_line_drops_start: when the line runs backwards along its major axis the trace starts at `stop` and never visits `start`, contrary to the header comment."
  },
  {
   "property": "C32",
   "status": "proved",
   "theorems": [
    "VW.Integral.table_spec",
    "VW.Integral.table_in_bounds",
    "VW.Integral.block_sum"
   ],
   "note": "All image sizes and contents, all blocks inside the image, arbitrary content of the fresh buffer. Exact arithmetic in any field instead of float."
  },
  {
   "property": "C33",
   "status": "partial",
   "theorems": [
    "VW.Utm.zone_standard_partial",
    "VW.Utm.zone_regular",
    "VW.Utm.zone_range",
    "VW.Utm.wrap_spec",
    "VW.Utm.band_total",
    "VW.Utm.band_X",
    "VW.Utm.band_V",
    "VW.Utm.band_top",
    "VW.Utm.zone_61",
    "VW.Utm.svalbard_north_wrong",
    "VW.Utm.svalbard_wrapped_wrong",
    "VW.Utm.norway_wrapped_wrong"
   ],
   "note": "Proved on latitudes [-80,80) x longitudes [-180,180), and for all longitudes outside the exceptional bands except 180 modulo 360. The rest of the claim is false of the code and refuted: zone 61 at 180E, exceptions ignored north of 80N, exceptions applied to the un-normalised longitude. Rational coordinates (no rounding)."
  },
  {
   "property": "C34",
   "status": "partial",
   "theorems": [
    "VW.Quad.root_covers",
    "VW.Quad.root_region_covers",
    "VW.Quad.branch_partition",
    "VW.Quad.branch_leaf",
    "VW.Quad.branch_names",
    "VW.Quad.simplePath_injective",
    "VW.Quad.tieredPath_injective",
    "VW.Quad.namedTieredPath_injective_partial",
    "VW.Quad.namedTieredPath_collision",
    "VW.Quad.boxFilter_value",
    "VW.Quad.level_cover",
    "VW.Quad.gen_square",
    "VW.Quad.generate_names",
    "VW.Quad.generate_cover",
    "VW.Quad.generate_content",
    "VW.Quad.write_crop",
    "VW.Quad.generate_crop",
    "VW.Quad.write_crop_leaf",
    "VW.Quad.cull_loses_data",
    "VW.Quad.odd_tiles_fail"
   ],
   "note": "Proved: levels, partition at every split and level, names, simple and tiered paths, and for even tile sizes (or one level) the content of every tile as a box mean. False parts proved as discrepancies: named tiered paths collide for a tree called like a tile; odd tile sizes other than 3 always throw when there is more than one level; cropping/culling drops coarse tiles whose data is narrower than a pixel. Exact arithmetic and real logarithms; user-supplied branch functions are not modelled."
  },
  {
   "property": "C35",
   "status": "proved",
   "theorems": [
    "VW.VarArray.run_refines",
    "VW.VarArray.step_rel",
    "VW.VarArray.resized_spec",
    "VW.VarArray.resized_clear",
    "VW.VarArray.resize_same_keeps"
   ],
   "note": "Every program over VarArray variables refines the same program over lists (no sharing, resize keeps the prefix). Finding: resize to the same size without preserve clears nothing (resize_same_keeps), the specification says so."
  },
  {
   "property": "C36",
   "status": "partial",
   "theorems": [
    "VW.StringUtils.string_replace_partial",
    "VW.StringUtils.returns_unique",
    "VW.StringUtils.string_replace_char",
    "VW.StringUtils.separate_spec",
    "VW.StringUtils.string_replace_diverges",
    "VW.StringUtils.string_replace_misses",
    "VW.StringUtils.string_replace_again"
   ],
   "note": "Left-to-right replacement proved when no occurrence can begin inside a replacement; in general it is false of the code (runs for ever, replaces inside replacements, misses adjacent ones): the counterexamples are theorems. Number parsing of str_to_vec not modelled."
  },
  {
   "property": "C37",
   "status": "partial",
   "theorems": [
    "VW.Stats.median_half",
    "VW.Stats.median_perm",
    "VW.Stats.median_between",
    "VW.Stats.destructiveMedian_eq",
    "VW.Stats.nmad_spec",
    "VW.Stats.percentile_spec",
    "VW.Stats.percentile_throws",
    "VW.Stats.outlier_brackets",
    "VW.Stats.outlier_brackets_sym",
    "VW.Stats.outlier_brackets_neg",
    "VW.Stats.outlier_brackets_perm",
    "VW.Stats.outlier_brackets_few",
    "VW.Stats.outlier_brackets_empty",
    "VW.Stats.outlier_brackets_inverted",
    "VW.Stats.sampleVariance_spec",
    "VW.Stats.mean_eq"
   ],
   "note": "Exact arithmetic in an ordered field; square roots left out. Brackets proved for fractions up to 1/4; near 1/2 the brackets can be inverted (outlier_brackets_inverted), so the claim for all fractions is false of the code."
  },
  {
   "property": "C38",
   "status": "partial",
   "theorems": [
    "VW.Functions.mod_spec",
    "VW.Functions.mod_eq_emod",
    "VW.Functions.mod_in_range",
    "VW.Functions.round_spec",
    "VW.Functions.round_defined",
    "VW.Functions.floor_spec",
    "VW.Functions.floor_defined",
    "VW.Functions.nextpow2_spec",
    "VW.Functions.nextpow2_overflow",
    "VW.Functions.hamming_spec",
    "VW.Functions.hamming_metric",
    "VW.IPMatch.hammingWide_spec"
   ],
   "note": "Exact arithmetic for the real-valued arguments (double rounding of x+0.5 not modelled). nextpow2 beyond 2^30 overflows (nextpow2_overflow), so the claim holds up to there only. The 32 and 64 bit Hamming distances use a compiler builtin, taken to count the bits set (hammingWide_spec)."
  },
  {
   "property": "C39",
   "status": "partial",
   "theorems": [
    "VW.Progress.report_within",
    "VW.Progress.progress_report",
    "VW.Progress.progress_empty_range",
    "VW.Progress.task_monotone",
    "VW.Progress.incr_run",
    "VW.Progress.incr_order",
    "VW.Progress.abort_seen",
    "VW.Progress.bar_fits",
    "VW.Progress.terminal_finished"
   ],
   "note": "All depths, schedules and report sequences, exact arithmetic. The null monitor ignores aborts (stated in abort_seen); a terminal monitor is not set to 1 by report_finished (terminal_finished); the copy constructor is not modelled."
  },
  {
   "property": "C40",
   "status": "partial",
   "theorems": [
    "VW.Cache.generator_throw_wedges",
    "VW.Cache.cache_size_leak"
   ],
   "note": "Refuted: the line stays charged and exclusively locked. Nothing of the positive claim remains beyond C02's wedged accounting."
  },
  {
   "property": "C41",
   "status": "partial",
   "theorems": [
    "VW.Cache.deprioritize_race_hangs",
    "VW.Cache.deprioritize_atomic_partial"
   ],
   "note": "Refuted by a concrete interleaving; true when the call does not interleave with an eviction of that line."
  },
  {
   "property": "C42",
   "status": "partial",
   "theorems": [
    "VW.Pool.destructor_race",
    "VW.Pool.pool_no_ub_alive",
    "VW.Pool.destructor_after_join_partial"
   ],
   "note": "Refuted: ~FifoWorkQueue destroys the task list before ~WorkQueue joins. Safe if the pool was joined before."
  },
  {
   "property": "C43",
   "status": "proved",
   "theorems": [
    "VW.Log.log_per_thread_order",
    "VW.Log.log_lines_not_mixed",
    "VW.Log.log_line_output"
   ],
   "note": ""
  },
  {
   "property": "C44",
   "status": "proved",
   "theorems": [
    "VW.Graph.mst_apply",
    "VW.Graph.apply_forest"
   ],
   "note": "For every tree built by the constructor and every start node. Recursion depth is unbounded in the model (no stack limit); a throwing functor is not modelled."
  },
  {
   "property": "C45",
   "status": "proved",
   "theorems": [
    "VW.Integral.xSecond_spec",
    "VW.Integral.ySecond_spec",
    "VW.Integral.xyDeriv_spec",
    "VW.Integral.hHaar_spec",
    "VW.Integral.vHaar_spec",
    "VW.Integral.haar_square",
    "VW.Integral.haar_even",
    "VW.Integral.xSecond_const"
   ],
   "note": "Exact arithmetic in any field; the wavelet size is rational. The floating-point coordinate overloads of the wavelets (on interpolated views) are not modelled. xSecond_const shows the bias for even lobes."
  },
  {
   "property": "C46",
   "status": "proved",
   "theorems": [
    "VW.Conv.conv_eval",
    "VW.Conv.conv_prerasterize",
    "VW.Conv.sep_eval",
    "VW.Conv.sep_prerasterize",
    "VW.Conv.sep_paths_agree",
    "VW.Conv.mode_shows",
    "VW.Conv.sep_paths_differ_rounding"
   ],
   "note": "For pixel types that hold the sums exactly. With a rounding pixel type the two paths of the separable view differ (sep_paths_differ_rounding), because rasterization converts the intermediate rows; sep_prerasterize gives the exact value in that case too. Planes are not modelled. mode_shows assumes the minimum image size of the extension mode as in C27."
  },
  {
   "property": "C47",
   "status": "partial",
   "theorems": [
    "VW.View.accessor_reads",
    "VW.View.raster_reads",
    "VW.View.prerasterize_transparent_partial",
    "VW.View.rasterize_transparent_partial",
    "VW.View.rasterize_inside_partial",
    "VW.View.complete_of_inside",
    "VW.View.subsample_reads_outside",
    "VW.View.subsample_requests_outside",
    "VW.View.transpose_transpose",
    "VW.View.rot180_rot180",
    "VW.View.flipV_flipV",
    "VW.View.rot90cw_rot90ccw",
    "VW.View.rot90cw_twice",
    "VW.View.rot90cw_is_flip_transpose",
    "VW.View.crop_crop",
    "VW.View.subsample_subsample",
    "VW.View.rot90cw_moves",
    "VW.View.rot90ccw_moves"
   ],
   "note": "All view expressions by induction. Missing: false of the code when the x and y subsampling factors differ (SubsampleView::prerasterize uses the x factor for the height of the child box); refuted by subsample_reads_outside and subsample_requests_outside. One plane; one pixel type; linear/reflect extension of one-pixel-wide images excluded (C27)."
  },
  {
   "property": "C48",
   "status": "proved",
   "theorems": [
    "VW.View.subdivide_partition",
    "VW.View.subdivide_inside",
    "VW.View.subdivide_full_only",
    "VW.View.subdivide_full_size",
    "VW.View.full_size_outside",
    "VW.View.subdivide_flags"
   ],
   "note": "Unbounded integers; block sizes positive. full_size_outside records the discrepancy: an object narrower than a block, full_size requested, yields a box outside the object."
  },
  {
   "property": "C49",
   "status": "partial",
   "theorems": [
    "VW.Stats.fill_bins",
    "VW.Stats.fill_total",
    "VW.Stats.init_centers",
    "VW.Stats.bin_near",
    "VW.Stats.bin_not_containing",
    "VW.Stats.percentile_bin",
    "VW.Stats.percentile_bin_throws",
    "VW.Stats.minMax_spec",
    "VW.Stats.meanAcc_spec",
    "VW.Stats.varAcc_spec",
    "VW.Stats.ewVarU8_wrong",
    "VW.Stats.sliding_spec",
    "VW.Stats.sliding_poisoned",
    "VW.Stats.sliding_pop_last"
   ],
   "note": "Exact arithmetic, before square roots. Findings: the bin counted in is not the bin containing the value (bin_not_containing); the channel-typed deviation accumulator wraps (ewVarU8_wrong); popping the only value of the sliding functor spoils it for good (sliding_pop_last), so windows of size 1 are excluded."
  },
  {
   "property": "C50",
   "status": "partial",
   "theorems": [
    "VW.Grassfire.grassfire_spec",
    "VW.Grassfire.grassfire_ignore_spec",
    "VW.Grassfire.grassfire_thin"
   ],
   "note": "Proved for images of at least two rows and columns, all pixels, both modes. Images of one row or column are set to 0 (grassfire_thin), which is not the documented distance. Output type int without overflow."
  },
  {
   "property": "C51",
   "status": "proved",
   "theorems": [
    "VW.Stopwatch.stopwatch_spec",
    "VW.Stopwatch.stray_stop"
   ],
   "note": "Clock readings do not go back and fewer than 2^32 calls. A stop without a start is outside the claim; its effect (later intervals lost) is stray_stop."
  },
  {
   "property": "C52",
   "status": "proved",
   "theorems": [
    "VW.Blob.blobIndex_spec",
    "VW.Blob.blobIndex_queries",
    "VW.Blob.size_spec",
    "VW.Blob.boundingBox_spec",
    "VW.Blob.intersects_iff",
    "VW.Blob.image_labels_not_blobs",
    "VW.Blob.intersects_gap_refuted"
   ],
   "note": "Full constructor (both passes, boost::connected_components modelled as the numbering of components by smallest vertex). Findings: the image returned by blob_index keeps provisional labels (one blob can have several labels); intersects() tests only the hull of each row; an empty image reads pixel (0,0)."
  },
  {
   "property": "C53",
   "status": "partial",
   "theorems": [
    "VW.Blob.threaded_spec_partial",
    "VW.Blob.threaded_sound",
    "VW.Blob.wipeBig_spec",
    "VW.Blob.absorb_spec",
    "VW.Blob.joins_conn",
    "VW.Blob.jobs_perm",
    "VW.Blob.threaded_hook_ub",
    "VW.Blob.threaded_none_ub",
    "VW.Blob.threaded_stale_boxes",
    "VW.Blob.threaded_first_ub",
    "VW.Blob.absorb_gap_ub"
   ],
   "note": "Proved for every image, tile size, order of tiles and jobs, provided reading front() of an empty row list yields some int (threaded_spec_partial), or whenever no undefined behaviour occurs (threaded_sound). The full claim is false of the code and refuted: a hook across a tile border reads front() of an empty list (UB) even single-threaded, an image without valid pixels and more than one tile adds vertex 2^64-1, with a single tile the boxes are not culled, and culling the first blob moves an iterator before begin. Float ceil of the division count and int overflow not modelled."
  },
  {
   "property": "C54",
   "status": "partial",
   "theorems": [
    "VW.Settings.api_holds_partial",
    "VW.Settings.disabled_holds",
    "VW.Settings.parse_val",
    "VW.Settings.cache_size_partial",
    "VW.Settings.poll_rate",
    "VW.Settings.getter_fixed",
    "VW.Settings.reload_depth",
    "VW.Settings.reload_eq",
    "VW.Settings.api_lost",
    "VW.Settings.cache_size_lost",
    "VW.Settings.edit_unseen",
    "VW.Settings.unreadable_not_retried",
    "VW.Settings.logs_twice"
   ],
   "note": "Proved for every history: a set value holds while no reload re-reads the file (api_holds_partial); with no vwrc the calls alone decide; values parsed = last line naming the key; cache size = setting while no call to set_system_cache_size re-enters the parser; polling rate. The full claim is false of the code and refuted: the first reload after a call overwrites the API value (api_lost), set_system_cache_size that triggers the read leaves setting and cache different (cache_size_lost), edits are unseen once a value is marked set (edit_unseen), an unreadable file is not retried, log files are added again on each reload. The boost ini reader and number parsing are parameters; concurrency of the settings mutex not modelled."
  },
  {
   "property": "C55",
   "status": "proved",
   "theorems": [
    "VW.Chipper.chip_spec",
    "VW.Chipper.chip_cells",
    "VW.Chipper.chip_refused",
    "VW.Chipper.load_good",
    "VW.Chipper.sift_good"
   ],
   "note": "For every cloud with rational coordinates. Partition boundaries are cumulated exactly (the code adds doubles and rounds); NaN coordinates and 32 bit wrap of indices are not modelled; the conversion through the georeference is a total function."
  },
  {
   "property": "C56",
   "status": "proved",
   "theorems": [
    "VW.Skyline.solve_posdef",
    "VW.Skyline.solve_solves",
    "VW.Skyline.multiSolve_posdef",
    "VW.Skyline.ldl_factors",
    "VW.Skyline.skyline_fits",
    "VW.Skyline.get_put",
    "VW.Skyline.solveForSkyline_spec",
    "VW.Skyline.reorganize_solves",
    "VW.Skyline.inverse_spec"
   ],
   "note": "Exact field arithmetic (over any ordered field) instead of double; rounding, zero pivots of semi-definite matrices (division by zero) and the boost Cuthill-McKee ordering (any permutation here) are not modelled."
  },
  {
   "property": "C57",
   "status": "partial",
   "theorems": [
    "VW.MatchIO.ip_roundtrip",
    "VW.MatchIO.match_roundtrip",
    "VW.MatchIO.match_sizes",
    "VW.MatchIO.cut_partial",
    "VW.MatchIO.cut_last",
    "VW.MatchIO.cut_header",
    "VW.MatchIO.cut_ip",
    "VW.MatchIO.cut_accepted"
   ],
   "note": "Round trips and the refusal of lists of different length are proved, and that files cut between the sizes and the last record are refused. \"Every file cut short is refused\" is false of the code: a cut at or in the last record is accepted with a made-up point (cut_last, cut_accepted), a cut in the second size can read as no matches (cut_header, cut_accepted), a .vwip file cut in its size reads as empty (cut_ip). Also refused lists of different length have already emptied the old file (match_sizes)."
  },
  {
   "property": "C58",
   "status": "partial",
   "theorems": [
    "VW.Names.match_short",
    "VW.Names.ip_short",
    "VW.Names.vwip_short",
    "VW.Names.clean_spec",
    "VW.Names.match_plain",
    "VW.Names.strip_prefix",
    "VW.Names.strip_other",
    "VW.Names.shorten_distinct",
    "VW.Names.shorten_one",
    "VW.Names.shorten_collides",
    "VW.Names.ip_distinct",
    "VW.Names.match_distinct_partial",
    "VW.Names.match_collides",
    "VW.Names.strip_inside"
   ],
   "note": "Length, directory, unchanged short names, prefix stripping: proved for all strings. Distinctness: proved for names that fit and have no \"__\" in the first name, for shortened names with different hashes, and for names that differ in one byte (the FNV hash then always differs). Refuted in general: match_collides (\"a__b\",\"c\" and \"a\",\"b__c\" share a match file), shorten_collides (the comment \"distinct names stay distinct\" fails for the shortened name itself), and the prefix is stripped wherever it occurs (strip_inside)."
  },
  {
   "property": "C59",
   "status": "proved",
   "theorems": [
    "VW.Corr.disparity_best",
    "VW.Corr.even_refused",
    "VW.Corr.single_invalid",
    "VW.Corr.copy_found",
    "VW.Corr.ncc_le_one",
    "VW.Corr.ncc_copy",
    "VW.Corr.ncc_found"
   ],
   "note": "Any ordered field in place of double (real numbers for cross correlation); rounding, NaN from all-zero windows, regions smaller than the kernel (only a debug assertion) and images accessed outside of their extent are not modelled. single_invalid: with a search range of one disparity every pixel is invalid, as the code marks pixels whose best and worst scores agree."
  },
  {
   "property": "C60",
   "status": "proved",
   "theorems": [
    "VW.Subdivide.subdivide_spec"
   ],
   "note": "The comparison of work estimates is left arbitrary, which includes its int32 overflow. Coordinates are unbounded integers; disparities equal to the sentinel values of an empty BBox2i are covered by the proof as they are in the code (integers)."
  },
  {
   "property": "C61",
   "status": "partial",
   "theorems": [
    "VW.Convert.convert_copies",
    "VW.Convert.convert_core",
    "VW.Convert.convert_alpha",
    "VW.Convert.graya_to_opaque",
    "VW.Convert.channels_to_planes",
    "VW.Convert.planes_to_channels",
    "VW.Convert.write_read",
    "VW.Convert.packed_separate",
    "VW.Convert.cropped_separate",
    "VW.Convert.convert_iff_can",
    "VW.Convert.opaque_greatest",
    "VW.Convert.mean_of_three",
    "VW.Convert.rgba_alpha_ignored",
    "VW.Convert.rgb_divided_by_blue",
    "VW.Convert.planes_not_rescaled",
    "VW.Convert.planes_unchecked",
    "VW.Convert.alpha_examples",
    "VW.Convert.can_convert_unknown"
   ],
   "note": "The full claim is false of the code, and refuted by rgba_alpha_ignored, rgb_divided_by_blue, planes_not_rescaled, planes_unchecked and can_convert_unknown: the test for alpha in the source looks at the destination for RGBA, so alpha of RGBA that is not premultiplied is dropped when going to RGB or gray, and RGB going to RGBA that is not premultiplied is divided by blue; rescale is forgotten between planes and channels; the number of planes of the destination is not checked; can_convert accepts two equal unknown formats. Addresses and strides are in channels; source and destination memories are separate."
  },
  {
   "property": "C62",
   "status": "partial",
   "theorems": [
    "VW.Convert.u8_u16_u8",
    "VW.Convert.rescale_within_one",
    "VW.Convert.u8_float_u8",
    "VW.Convert.premul_near",
    "VW.Convert.premul_ends",
    "VW.Convert.unpremul_premul",
    "VW.Convert.rescale_loses",
    "VW.Convert.rescale_negative",
    "VW.Convert.one_to_int64"
   ],
   "note": "The claim about rescaling is false of the code: float to integer truncates, so 33 comes back from double as 32 and the uint16 value 1 from float as 0 (rescale_loses); negative values come back as 0 (rescale_negative); 1.0 to int64 overflows (one_to_int64). Proved: uint8 through uint16 and through float is exact, everything else is at most one less. Floating point numbers are rationals rounded to 24 or 53 bits, without infinities and subnormal numbers."
  },
  {
   "property": "C63",
   "status": "partial",
   "theorems": [
    "VW.SGM.path_optimal",
    "VW.SGM.path_optimal_nested",
    "VW.SGM.path_not_optimal",
    "VW.SGM.evaluate_spec",
    "VW.SGM.evaluate_restart",
    "VW.SGM.evaluate_bound",
    "VW.SGM.pathCost_bound",
    "VW.SGM.stretch_start",
    "VW.SGM.sse_agrees",
    "VW.SGM.evaluate_buffer",
    "VW.SGM.lookup_spec",
    "VW.SGM.nbr_all",
    "VW.SGM.defaults_ok"
   ],
   "note": "The full claim is false when search ranges change along the line: the value for a missing disparity, 255 + p2, is not above every path cost, and jump penalties get lost (path_not_optimal). Proved: the claim when each range has the disparities of the one before, in particular for constant ranges (path_optimal_nested), and in general whenever some disparity of each pixel leaves room for a jump (path_optimal). MGM (task_* of SGMAssist.h) and subpixel fitting are not modelled; the eight SSE lanes are modelled one at a time."
  },
  {
   "property": "C64",
   "status": "proved",
   "theorems": [
    "VW.SGM.dirPixels_nodup",
    "VW.SGM.mem_dirPixels",
    "VW.SGM.dirPixels_perm",
    "VW.SGM.on_line",
    "VW.SGM.on_one_line",
    "VW.SGM.lineLength_spec",
    "VW.SGM.accum_sum",
    "VW.SGM.defaults_ok",
    "VW.SGM.buffer_disjoint",
    "VW.SGM.line_fits",
    "VW.SGM.accum_overflow"
   ],
   "note": "Additions to one element by one task are taken as atomic: no two tasks of a direction share an element (dirPixels_nodup), and directions are separated by join_all. accum_overflow shows that p2 = 8000 does overflow. int overflow of sizes is not modelled."
  },
  {
   "property": "C65",
   "status": "partial",
   "theorems": [
    "VW.SGM.choose_in_range",
    "VW.SGM.choose_best",
    "VW.SGM.index_inverse",
    "VW.SGM.index_of_disp",
    "VW.SGM.prior_spec",
    "VW.SGM.prior_wf",
    "VW.SGM.mask_spec",
    "VW.SGM.tie_picks_worst",
    "VW.SGM.prior_out_of_reach"
   ],
   "note": "False for ties: smoothing the costs 0, 5, 0 makes the middle one, the worst, the choice (tie_picks_worst). A single best disparity is always chosen (choose_best). Ranges are in order if twice the earlier disparity is within the buffer of the search range (prior_wf); otherwise the number of disparities is negative (prior_out_of_reach). The shrinking of ranges to save memory (constrain_disp_bound_image) and the scans for the valid right region are not modelled."
  },
  {
   "property": "C66",
   "status": "partial",
   "theorems": [
    "VW.Matrix.inverse_correct",
    "VW.Matrix.lu_correct",
    "VW.Matrix.lu_multipliers_le_one",
    "VW.Matrix.inverse2_correct",
    "VW.Matrix.inverse2_eq_inverse",
    "VW.Matrix.det_correct_partial",
    "VW.Matrix.det_zero_wrong",
    "VW.Matrix.det2_correct",
    "VW.Matrix.det_mul_partial",
    "VW.Matrix.inverse_none_iff_det_partial",
    "VW.Matrix.vector_roundtrip_partial",
    "VW.Matrix.vectorToMatrix_none",
    "VW.Matrix.matrixToVector_not_square"
   ],
   "note": "Everything about inverse is proved. det of the matrix of size zero is 0 instead of 1 (det_zero_wrong); proved for all other sizes. matrix_to_vector exchanges rows and columns and so reads outside a matrix that is not square (matrixToVector_not_square). Exact arithmetic; rounding is not modelled. inverse does not check that the matrix is square."
  },
  {
   "property": "C67",
   "status": "proved",
   "theorems": [
    "VW.Warp.expr_roundtrip",
    "VW.Warp.affine_ok",
    "VW.Warp.project_mul",
    "VW.Warp.expr_proj",
    "VW.Warp.functor_laws",
    "VW.Warp.affine2mat_correct",
    "VW.Warp.rotate_correct"
   ],
   "note": "Exact arithmetic; cosine and sine of a rotation are any pair with c*c+s*s=1. The default numeric inverse (Levenberg-Marquardt) and PointLookup/Approximate transforms are not part of this claim."
  },
  {
   "property": "C68",
   "status": "partial",
   "theorems": [
    "VW.Warp.bbox_covers_partial",
    "VW.Warp.bbox_covers_affine",
    "VW.Warp.expr_type",
    "VW.Warp.discontinuous_covers",
    "VW.Warp.continuous_covers_partial",
    "VW.Warp.bbox_tight",
    "VW.Warp.bbox_empty",
    "VW.Warp.inverse_bbox",
    "VW.Warp.transformedBBox_mem",
    "VW.Warp.fast_eq_full_partial",
    "VW.Warp.bbox_pole_wrong",
    "VW.Warp.bbox_continuous_wrong",
    "VW.Warp.bbox_roundtrip_wrong",
    "VW.Warp.transformedBBox_half_open"
   ],
   "note": "Proved for affine functors and, for homographies, if no pole lies between the pixels of the box; refuted with a pole (bbox_pole_wrong: homographies are marked convex) and for continuous functors whose extremes are inside (bbox_continuous_wrong). A box transformed there and back can lose its last pixels (bbox_roundtrip_wrong); the box of compute_transformed_bbox taken as half-open lacks the last row and column (transformedBBox_half_open). Tightness assumes coordinates in the range of 32-bit integers."
  },
  {
   "property": "C69",
   "status": "proved",
   "theorems": [
    "VW.Warp.eval_at_pixel",
    "VW.Warp.nearest_spec",
    "VW.Warp.bilinear_cell",
    "VW.Warp.bilinear_between",
    "VW.Warp.bilinear_ramp",
    "VW.Warp.bicubic_cell",
    "VW.Warp.bicubic_quadratic",
    "VW.Warp.bicubic_overshoot",
    "VW.Warp.eval_reads",
    "VW.Warp.eval_local"
   ],
   "note": "Exact arithmetic, one channel; the conversion to the channel type is an arbitrary function in the values, and in bilinear_between one that maps the interval to itself (the identity, or rounding if the bounds are integers). bicubic_overshoot: bicubic interpolation leaves the range of the pixels, which is why the code clamps."
  },
  {
   "property": "C70",
   "status": "partial",
   "theorems": [
    "VW.Warp.warp_raster_partial",
    "VW.Warp.warp_raster_affine",
    "VW.Warp.warp_raster_discontinuous",
    "VW.Warp.extended_shows",
    "VW.Warp.interpPre_read",
    "VW.Warp.noData_raster_partial",
    "VW.Warp.noData_no_extension",
    "VW.Warp.noData_identity",
    "VW.Warp.noData_loses_border",
    "VW.Warp.warp_identity",
    "VW.Warp.warp_translate",
    "VW.Warp.warp_magnify",
    "VW.Warp.resampledSize_spec",
    "VW.Warp.resize_within",
    "VW.Warp.warp_reads_outside"
   ],
   "note": "Proved for affine functors, for every functor marked discontinuous, and for any other at the pixels whose reverse transform is in the box of the reverse transform. False for functors marked continuous (or homographies with poles, see C68) that need source pixels outside of that box: rasterizing reads what was not rasterized (warp_reads_outside). Findings: transform_nodata loses the last row and column of an image under the identity (noData_loses_border). Images one pixel wide with reflect or linear extension are excluded (C27)."
  },
  {
   "property": "C71",
   "status": "partial",
   "theorems": [
    "VW.Warp.approxTable_exact",
    "VW.Warp.approx_at_grid",
    "VW.Warp.approx_checked",
    "VW.Warp.approx_affine",
    "VW.Warp.affine_formula",
    "VW.Warp.approx_between",
    "VW.Warp.approx_small",
    "VW.Warp.warp_tolerance_affine",
    "VW.Warp.approx_tolerance_wrong"
   ],
   "note": "All but the last is proved (termination is part of the definition of the model). The tolerance is not kept: the refinement stops when the midpoints of the last grid fit, and the approximation can be off by any amount between (approx_tolerance_wrong)."
  },
  {
   "property": "C72",
   "status": "proved",
   "theorems": [
    "VW.SpatialTree.contains_all",
    "VW.SpatialTree.contains_one",
    "VW.SpatialTree.intersects_all",
    "VW.SpatialTree.overlap_pairs_once",
    "VW.SpatialTree.History.spec"
   ],
   "note": "Exact arithmetic. overlap_pairs_once assumes that no primitive was added twice and that the intersects method of primitives is symmetric (the order of a pair is up to the tree)."
  },
  {
   "property": "C73",
   "status": "partial",
   "theorems": [
    "VW.SpatialTree.History.spec",
    "VW.SpatialTree.add_spec",
    "VW.SpatialTree.LevelHistory.settled",
    "VW.SpatialTree.placed_smallest",
    "VW.SpatialTree.add_returns",
    "VW.SpatialTree.ofPrims_returns",
    "VW.SpatialTree.default_returns_iff",
    "VW.SpatialTree.point_never_added",
    "VW.SpatialTree.flat_outside_never_added",
    "VW.SpatialTree.ofPrims_flat",
    "VW.SpatialTree.mixed_levels_hang",
    "VW.SpatialTree.growOnGrid_some"
   ],
   "note": "Nothing is lost by any call that returns (History.spec). With one level for all calls and boxes with an inside, add returns (if the box need not grow by more than 2^30) and the primitive is in the smallest node. Refuted otherwise: add never returns for a primitive that is a point with the default level (point_never_added; with the default level it returns exactly for boxes that are more than a point, default_returns_iff); two primitives added with different levels make add go on for ever (mixed_levels_hang); a primitive with a flat box below the tree, and a list of flat primitives only, lead to a null pointer (flat_outside_never_added, ofPrims_flat)."
  },
  {
   "property": "C74",
   "status": "partial",
   "theorems": [
    "VW.SpatialTree.closest_correct",
    "VW.SpatialTree.heuristic_le",
    "VW.SpatialTree.closest_single",
    "VW.SpatialTree.closest_misses",
    "VW.SpatialTree.closest_flat_throws",
    "VW.SpatialTree.maxPop_spec"
   ],
   "note": "Proved over the reals for boxes with an inside, and primitives not closer than the machine epsilon if the point is not in their (half-open) box. Refuted without: the heuristic is at least epsilon outside of the half-open box, so that a threshold below epsilon, such as 0, misses a primitive that touches the point with an upper face (closest_misses); a primitive with a flat box makes closest throw (closest_flat_throws)."
  },
  {
   "property": "C75",
   "status": "partial",
   "theorems": [
    "Verif.Geom.Frames.tree_children",
    "Verif.Geom.Frames.tree_parent_alloc",
    "Verif.Geom.Frames.tree_root",
    "Verif.Geom.Frames.tree_new",
    "Verif.Geom.Frames.tree_set_parent",
    "Verif.Geom.Frames.tree_delete",
    "Verif.Geom.Frames.tree_recursive_delete",
    "Verif.Geom.Frames.tree_is_ancestor_of",
    "Verif.Geom.Frames.tree_num_offsprings",
    "Verif.Geom.Frames.tree_breadth_first",
    "Verif.Geom.Frames.tree_pre_order",
    "Verif.Geom.Frames.tree_post_order",
    "Verif.Geom.Frames.tree_pre_order_siblings",
    "Verif.Geom.Frames.tree_post_order_late",
    "Verif.Geom.Frames.tree_cycle"
   ],
   "note": "Proved for histories in which no node is put below itself. Refuted: set_parent with a node of the own subtree is accepted and walks to the root never return (tree_cycle); pre_order_traverse on a node that has later siblings visits those too (tree_pre_order_siblings); post_order_traverse visits a node after its later siblings, so its order is not the post-order although each node comes after those below it (tree_post_order_late)."
  },
  {
   "property": "C76",
   "status": "proved",
   "theorems": [
    "Verif.Geom.Frames.tree_ancestry",
    "Verif.Geom.Frames.tree_last_common_ancestor",
    "Verif.Geom.Frames.tree_last_common_ancestor_symm"
   ],
   "note": "For histories in which no node is put below itself."
  },
  {
   "property": "C77",
   "status": "partial",
   "theorems": [
    "Verif.Geom.Frames.frames_world",
    "Verif.Geom.Frames.frames_get",
    "Verif.Geom.Frames.frames_position",
    "Verif.Geom.Frames.frames_compose",
    "Verif.Geom.Frames.frames_self",
    "Verif.Geom.Frames.frames_inverse",
    "Verif.Geom.Frames.frames_parent",
    "Verif.Geom.Frames.frames_apart",
    "Verif.Geom.Frames.atrans_matrix",
    "Verif.Geom.Frames.atrans_matrix_lost"
   ],
   "note": "Exact arithmetic over any field. Everything about frames of one tree is proved. Frames of different trees silently get the identity (frames_apart). Refuted: the conversion of a transform to a 4x4 matrix returns the zero matrix (atrans_matrix_lost)."
  },
  {
   "property": "C78",
   "status": "partial",
   "theorems": [
    "Verif.Geom.Frames.frames_set",
    "Verif.Geom.Frames.frames_set_outside",
    "Verif.Geom.Frames.frames_set_inside",
    "Verif.Geom.Frames.frames_set_assigns",
    "Verif.Geom.Frames.frames_set_all",
    "Verif.Geom.Frames.frames_set_below",
    "Verif.Geom.Frames.frames_set_rel"
   ],
   "note": "Proved for a frame with a parent and a wrt frame of the same tree that is not below it. Refuted: for a wrt frame below it the request has no effect on the relative position (frames_set_below); set_transform_rel replaces the transform instead of composing with it (frames_set_rel)."
  },
  {
   "property": "C79",
   "status": "partial",
   "theorems": [
    "Verif.Geom.Frames.store_returns",
    "Verif.Geom.Frames.store_roots",
    "Verif.Geom.Frames.store_sibling_names",
    "Verif.Geom.Frames.store_root_names",
    "Verif.Geom.Frames.store_add",
    "Verif.Geom.Frames.store_del_duplicates",
    "Verif.Geom.Frames.store_reserved_name"
   ],
   "note": "Sibling names are unique after every history; root names are as long as frames are only deleted recursively. Refuted: del(frame, false) can leave two roots of one name (store_del_duplicates); names containing a slash are accepted and then not found by their full name (store_reserved_name)."
  },
  {
   "property": "C80",
   "status": "partial",
   "theorems": [
    "Verif.Geom.Frames.store_full_name",
    "Verif.Geom.Frames.store_lookup_absolute",
    "Verif.Geom.Frames.store_lookup_full_name",
    "Verif.Geom.Frames.store_full_name_injective",
    "Verif.Geom.Frames.store_lookup_name",
    "Verif.Geom.Frames.store_lookup_scope",
    "Verif.Geom.Frames.store_lookup_scope_ignored"
   ],
   "note": "The round trip of full names assumes different root names (see C79). Refuted: the scope is ignored for absolute paths (store_lookup_scope_ignored)."
  },
  {
   "property": "C81",
   "status": "partial",
   "theorems": [
    "Verif.Geom.Frames.store_merge",
    "Verif.Geom.Frames.store_merge_start"
   ],
   "note": "Proved without a start frame. With a start frame the arguments of the merge are swapped: the store keeps only frames that are in both trees, the rest of them is deleted, and nothing is added (store_merge_start)."
  },
  {
   "property": "C82",
   "status": "partial",
   "theorems": [
    "Verif.Geom.Frames.store_is_member",
    "Verif.Geom.Frames.store_frame_names",
    "Verif.Geom.Frames.store_del",
    "Verif.Geom.Frames.store_del_one",
    "Verif.Geom.Frames.store_set_parent",
    "Verif.Geom.Frames.store_set_parent_cycle",
    "Verif.Geom.Frames.store_set_parent_foreign"
   ],
   "note": "Refuted: set_parent accepts a parent below the frame (store_set_parent_cycle) and a frame that is not in the store, for example a root of another store, which then has it too (store_set_parent_foreign)."
  },
  {
   "property": "C83",
   "status": "partial",
   "theorems": [
    "Verif.BA.network_total",
    "Verif.BA.network_self",
    "Verif.BA.network_measures",
    "Verif.BA.network_connected",
    "Verif.BA.network_disjoint",
    "Verif.BA.network_covers",
    "Verif.BA.network_once",
    "Verif.BA.network_direction",
    "Verif.BA.thin_spec",
    "Verif.BA.network_drops",
    "Verif.BA.network_splits"
   ],
   "note": "Triangulation and ground control points are not modelled. An interest point is in exactly one tie point if no other interest point of its image is connected to it; otherwise another one may take its place (network_drops). Refuted: connected interest points, one per image, can end in two tie points, since tracks are never merged (network_splits). A file of an image with itself makes the function throw (network_self)."
  },
  {
   "property": "C84",
   "status": "partial",
   "theorems": [
    "Verif.BA.relation_total",
    "Verif.BA.relation_features",
    "Verif.BA.relation_nodes",
    "Verif.BA.relation_in_camera",
    "Verif.BA.relation_connections",
    "Verif.BA.relation_symmetric",
    "Verif.BA.relation_map",
    "Verif.BA.relation_multimap",
    "Verif.BA.relation_common"
   ],
   "note": "Everything is proved for networks in which each control point has a measure. A control point without measures makes from_cnet decrement the end of an empty vector, which is undefined (relation_total). With several measures of a point in one image the map of a feature leads to the last one (relation_map)."
  },
  {
   "property": "C85",
   "status": "partial",
   "theorems": [
    "Verif.Ransac.sample_distinct",
    "Verif.Ransac.sample_ends",
    "Verif.Ransac.sample_stuck",
    "Verif.Ransac.inlier_indices_spec",
    "Verif.Ransac.ransac_best",
    "Verif.Ransac.ransac_fails",
    "Verif.Ransac.ransac_schedule",
    "Verif.Ransac.ransac_mean",
    "Verif.Ransac.ransac_exact",
    "Verif.Ransac.ransac_result",
    "Verif.Ransac.ransac_throws",
    "Verif.Ransac.ransac_ties",
    "Verif.Ransac.ransac_fewer_inliers",
    "Verif.Ransac.ransac_stays_reduced"
   ],
   "note": "Exact arithmetic; functors that do not throw. Refuted: with two models of equal mean error the result depends on the schedule (ransac_ties); the model fitted again can have fewer inliers than required (ransac_fewer_inliers); the required number stays reduced for later calls (ransac_stays_reduced); the sampling loop need not end (sample_stuck)."
  },
  {
   "property": "C86",
   "status": "partial",
   "theorems": [
    "Verif.Opt.nm_descends",
    "Verif.Opt.nm_status",
    "Verif.Opt.nm_total",
    "Verif.Opt.nm_default",
    "Verif.Opt.nm_simplex",
    "Verif.Opt.update_value",
    "Verif.Opt.nm_best",
    "Verif.Opt.nm_points",
    "Verif.Opt.run_spec",
    "Verif.Opt.nm_not_best",
    "Verif.Opt.nm_no_coordinates",
    "Verif.Opt.nm_status_late"
   ],
   "note": "No law of arithmetic is assumed (so rounding is covered, NaN is not), except for nm_points which is about exact arithmetic. Refuted: the result is the best point evaluated (nm_not_best: shrinking the whole simplex leaves the vertices unordered); it holds as long as that did not happen (nm_best). A seed without coordinates leads to undefined behaviour (nm_no_coordinates). A run that converged in exactly max_iterations is reported as not converged (nm_status_late)."
  },
  {
   "property": "C87",
   "status": "partial",
   "theorems": [
    "Verif.Opt.lm_descends",
    "Verif.Opt.lm_trace",
    "Verif.Opt.lm_abs",
    "Verif.Opt.lm_rel",
    "Verif.Opt.lm_iterations",
    "Verif.Opt.lm_stationary",
    "Verif.Opt.step_unique",
    "Verif.Opt.step_zero",
    "Verif.Opt.lm_step_descends",
    "Verif.Opt.lm_linear",
    "Verif.Opt.lm_linear_loop",
    "Verif.Opt.lm_linear_better",
    "Verif.Opt.lm_huge",
    "Verif.Opt.lm_sixth",
    "Verif.Opt.lm_nan"
   ],
   "note": "Model functions and solvers do not throw; the step in exact arithmetic. Refuted: for an initial error of 2^53 or more nothing is tried and a vector to which nothing was assigned is returned as converged (lm_huge); a point where the model is NaN is accepted (lm_nan); a better point found at the sixth trial of an iteration is dropped (lm_sixth). Proved for numbers without NaN for which norm + 1 > norm."
  },
  {
   "property": "C88",
   "status": "partial",
   "theorems": [
    "Verif.Opt.armijo_spec",
    "Verif.Opt.armijo_descends",
    "Verif.Opt.charalambous_wolfe",
    "Verif.Opt.charalambous_never",
    "Verif.Opt.armijo_smooth",
    "Verif.Opt.steepest_descends",
    "Verif.Opt.steepest_smooth",
    "Verif.Opt.steepest_gradient",
    "Verif.Opt.constant_smooth",
    "Verif.Opt.cg_way",
    "Verif.Opt.cg_descends",
    "Verif.Opt.cg_armijo",
    "Verif.Opt.cg_steepest",
    "Verif.Opt.cg_stationary",
    "Verif.Opt.cg_uphill",
    "Verif.Opt.armijo_gives_up"
   ],
   "note": "Exact arithmetic. Refuted: a seed where the gradient vanishes is returned by conjugate_gradient (cg_stationary: the second iteration divides 0 by 0); the result of conjugate_gradient is never worse than the seed, or one iteration more does not make it worse (cg_uphill: a Fletcher-Reeves direction may go up, and Armijo then accepts an increase); Armijo never increases the function when it gives up (armijo_gives_up); Charalambous always ends (charalambous_never: along a direction that goes up it never does). cg_descends and cg_armijo give the claim under the condition that the directions do not go up."
  },
  {
   "property": "C89",
   "status": "partial",
   "theorems": [
    "Verif.Opt.swarm_descends",
    "Verif.Opt.swarm_best",
    "Verif.Opt.swarm_evaluated",
    "Verif.Opt.swarm_stuck",
    "Verif.Opt.swarm_starts",
    "Verif.Opt.swarm_speed",
    "Verif.Opt.swarm_leaves_box",
    "Verif.Opt.swarm_not_best",
    "Verif.Opt.swarm_worse"
   ],
   "note": "Exact arithmetic. Refuted: the result is the best point evaluated (swarm_stuck, swarm_not_best: the first loop stores the value of a comparison, 1, as the best value; proved for functions with values below 1: swarm_best); not worse than the corner without iterations (swarm_worse); the result lies in the box (swarm_leaves_box); the speed limit (swarm_speed: a particle that is too fast is set to speed 1)."
  },
  {
   "property": "C90",
   "status": "partial",
   "theorems": [
    "Verif.Opt.newton_fallback",
    "Verif.Opt.newton_converged",
    "Verif.Opt.newton_no_value",
    "Verif.Opt.numJac_quadratic",
    "Verif.Opt.newton_affine",
    "Verif.Opt.newton_worse"
   ],
   "note": "Exact arithmetic. Refuted: the result is never worse than the guess (newton_worse: the point after the last step is returned without evaluating the function there)."
  },
  {
   "property": "C91",
   "status": "partial",
   "theorems": [
    "Verif.Mask.mask_expr",
    "Verif.Mask.in_place",
    "Verif.Mask.mask_basic",
    "Verif.Mask.create_valid",
    "Verif.Mask.create_value",
    "Verif.Mask.apply_create",
    "Verif.Mask.create_apply",
    "Verif.Mask.apply_spec",
    "Verif.Mask.mask_algebra",
    "Verif.Mask.alpha_round",
    "Verif.Mask.edge_valid",
    "Verif.Mask.edge_documented",
    "Verif.Mask.edge_value",
    "Verif.Mask.edge_first_lost",
    "Verif.Mask.mean_wrong",
    "Verif.Mask.quot_by_zero",
    "Verif.Mask.alpha_lost"
   ],
   "note": "Channel type conversions are left out. Refuted: with a buffer of zero, the default, edge_mask also masks the outermost pixels that do not have the mask value (edge_first_lost; with a buffer of -1 it does what is documented: edge_documented; edge_valid says exactly which pixels are valid); mean_channel_value of a masked pixel leaves out the last channel (mean_wrong); a divisor with only some channels zero is divided by (quot_by_zero); half transparent pixels become opaque (alpha_lost). validate_mask is declared without definition."
  },
  {
   "property": "C92",
   "status": "proved",
   "theorems": [
    "Verif.DMap.cross_spec",
    "Verif.DMap.cross_frame",
    "Verif.DMap.cross_returns",
    "Verif.DMap.cross_injective",
    "Verif.DMap.cross_idem"
   ],
   "note": "Integer disparities, any ordered type for the threshold. The log output is left out."
  },
  {
   "property": "C93",
   "status": "partial",
   "theorems": [
    "Verif.DMap.mask_full",
    "Verif.DMap.dispRange_spec",
    "Verif.DMap.mask_tile",
    "Verif.DMap.mask_out_of_range",
    "Verif.DMap.rangeMask_spec",
    "Verif.DMap.rangeMask_rows",
    "Verif.DMap.transformFunc_spec",
    "Verif.DMap.transformRegion_spec",
    "Verif.DMap.intersectData_spec"
   ],
   "note": "Refuted: with a search range that does not hold a disparity of the tile, the tile reads outside of its memory (mask_out_of_range; equal to the whole for ranges that do, and always without range: mask_tile). The range mask compares rows with the lower bound of columns, so it is wrong whenever the two differ (rangeMask_rows; right if they are equal: rangeMask_spec)."
  },
  {
   "property": "C94",
   "status": "partial",
   "theorems": [
    "Verif.DMap.sub_valid",
    "Verif.DMap.sub_bounds",
    "Verif.DMap.sub_bounds_int",
    "Verif.DMap.sub_constant",
    "Verif.DMap.subBox_covers",
    "Verif.DMap.subSize_spec",
    "Verif.DMap.up_spec",
    "Verif.DMap.sub_up",
    "Verif.DMap.upBox_covers",
    "Verif.DMap.padBox_covers",
    "Verif.DMap.rmThresh_spec",
    "Verif.DMap.rmThresh_extremes",
    "Verif.DMap.mean_row_stuck",
    "Verif.DMap.mean_row_spec",
    "Verif.DMap.rmMean_frame",
    "Verif.DMap.rmMean_spec",
    "Verif.DMap.cutoff_spec",
    "Verif.DMap.cutoff_rank",
    "Verif.DMap.rmStd_spec",
    "Verif.DMap.stdWrites_fit",
    "Verif.DMap.stdWrites_overflow",
    "Verif.DMap.stdDevImage_odd",
    "Verif.DMap.stdDevImage_even"
   ],
   "note": "Exact numbers. Refuted: a tile of the doubled map asks its child for the unscaled box, which holds what it reads only for tiles at the origin (upBox_covers); an empty map is halved to one pixel (subSize_spec); the loop for the mean stays on a gross outlier and ignores the rest of the row (mean_row_stuck; right without gross outliers: rmMean_spec); the deviation filter writes behind its vectors for windows wider than high (stdWrites_overflow); std_dev_image of a constant image is not zero for even sizes, and it returns the variance (stdDevImage_even, stdDevImage_odd). The plane filter is left out."
  },
  {
   "property": "C95",
   "status": "partial",
   "theorems": [
    "Verif.Camera.pair_spec",
    "Verif.Camera.pair_exact",
    "Verif.Camera.pair_swap",
    "Verif.Camera.pair_scale",
    "Verif.Camera.rayDistSq_spec",
    "Verif.Camera.multi_spec",
    "Verif.Camera.multi_pair",
    "Verif.Camera.multi_exact",
    "Verif.Camera.point_exact",
    "Verif.Camera.nearlyParallel_spec",
    "Verif.Camera.rays_exact",
    "Verif.Camera.pickRays_spec",
    "Verif.Camera.triangulate_cases",
    "Verif.Camera.triangulate_exact",
    "Verif.Camera.opposite_nan",
    "Verif.Camera.drift",
    "Verif.Camera.reflect_behind",
    "Verif.Camera.reflect_front",
    "Verif.Camera.no_reflect"
   ],
   "note": "Exact numbers. Refuted: opposite directions pass the test for parallel rays and give NaN (opposite_nan); only neighbouring directions are compared, so a wide fan of rays is refused (drift); a point behind one of the cameras is reflected about the centre of the first, which puts a point that was in front of the first camera behind it (reflect_behind; right if it was behind the first: reflect_front)."
  },
  {
   "property": "C96",
   "status": "partial",
   "theorems": [
    "Verif.Camera.normalize_spec",
    "Verif.Camera.pixel_iff",
    "Verif.Camera.vector_spec",
    "Verif.Camera.round_trip",
    "Verif.Camera.cahv_stereo",
    "Verif.Camera.params_project",
    "Verif.Camera.view_center",
    "Verif.Camera.epipolar_spec",
    "Verif.Camera.epipolar_rows",
    "Verif.Camera.epipolar_rows_fail"
   ],
   "note": "Exact numbers. Refuted: the constructor from a view matrix reads row 3 for the centre, so for a view matrix (last row 0 0 0 1) the camera is at the origin (view_center). After rectification a point has equal rows only if the baseline is perpendicular to the mean axis or the point is in a special plane (epipolar_rows, epipolar_rows_fail). Files are not modelled."
  },
  {
   "property": "C97",
   "status": "partial",
   "theorems": [
    "Verif.Camera.toM_mul",
    "Verif.Camera.toM_rot",
    "Verif.Camera.rotate_spec",
    "Verif.Camera.inv_spec",
    "Verif.Camera.rot_dot",
    "Verif.Camera.ofM_toM",
    "Verif.Camera.toM_ofM",
    "Verif.Camera.ofM_reflection",
    "Verif.Camera.ofM_det_neg",
    "Verif.Camera.axis_matrix",
    "Verif.Camera.axis_round",
    "Verif.Camera.matrix_axis_round",
    "Verif.Camera.slerp_ends",
    "Verif.Camera.slerp_unit",
    "Verif.Camera.slerpN_some",
    "Verif.Camera.slerpN_zero",
    "Verif.Camera.slerpN_value"
   ],
   "note": "Exact numbers. Refuted: a matrix with negative determinant gives a quaternion of another matrix without report (ofM_det_neg); slerp_n fails for right weights if the first two are zero (slerpN_zero; otherwise right: slerpN_some). A rotation smaller than the threshold comes back only up to twice the threshold (axis_round)."
  },
  {
   "property": "C98",
   "status": "partial",
   "theorems": [
    "Verif.Camera.inverse_m3",
    "Verif.Camera.rebuild_spec",
    "Verif.Camera.fresh_unique",
    "Verif.Camera.setters_spec",
    "Verif.Camera.run_fresh",
    "Verif.Camera.plane_spec",
    "Verif.Camera.valid_spec",
    "Verif.Camera.pin_vector_spec",
    "Verif.Camera.pin_round_trip",
    "Verif.Camera.check_spec",
    "Verif.Camera.make_spec",
    "Verif.Camera.scale_spec",
    "Verif.Camera.strip_spec",
    "Verif.Camera.scale_left_handed",
    "Verif.Camera.transform_spec",
    "Verif.Camera.transform4_spec",
    "Verif.Camera.no_rebuild",
    "Verif.Camera.focal_zero"
   ],
   "note": "Exact numbers, abstract lens. Refuted: the check of point_to_pixel accepts points behind the camera (check_spec); set_focal_length and set_point_offset with rebuild=false leave stale matrices (no_rebuild); a focal length of zero throws but leaves new parameters and camera matrix with the old inverse (focal_zero); scaling or stripping a camera whose rotation is left-handed changes its orientation without report (scale_left_handed). Files and set_camera_matrix are not modelled."
  },
  {
   "property": "C99",
   "status": "partial",
   "theorems": [
    "Verif.Camera.pin_epipolar",
    "Verif.Camera.pin_epipolar_frame",
    "Verif.Camera.ofPin_spec",
    "Verif.Camera.toPin_spec",
    "Verif.Camera.toPin_changes",
    "Verif.Camera.toPin_skew"
   ],
   "note": "Exact numbers. Refuted: epipolar takes the third column of the rotation as viewing axis, so for cameras whose frame is reversed the result looks the other way (pin_epipolar_frame); toPinhole normalises the vector A of its source (toPin_changes) and is wrong for cameras with skew (toPin_skew); the conversion to CAHV drops the lens without report."
  }
 ]
}
