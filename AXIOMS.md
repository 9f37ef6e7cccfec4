# Axioms of every claimed theorem

Output of `#print axioms`, grouped (made by `tools/design.py --axioms`).

## none (22 theorems)

`VW.Bayer.moved`, `VW.Block.empty_width_index_out_of_range`, `VW.Edge.linear_one_column_source_outside`, `VW.Edge.value_spec`, `VW.Edge.view_read`, `VW.Edge.zero_spec`, `VW.Graph.mst_ctor_empty_unchecked`, `VW.Graph.mst_ctor_may_reject`, `VW.Grassfire.grassfire_thin`, `VW.MatchIO.cut_accepted`, `VW.MatchIO.match_sizes`, `VW.Pool.destructor_race`, `VW.Pool.fifo_start_order_refuted`, `VW.Pool.ordered_start_order_refuted`, `VW.Quad.branch_leaf`, `VW.Quad.branch_names`, `VW.SGM.prior_out_of_reach`, `VW.StringUtils.string_replace_misses`, `VW.View.rot90cw_is_flip_transpose`, `VW.View.rot90cw_twice`, `VW.View.transpose_transpose`, `Verif.Camera.Bathy.clone_zero`

## propext (39 theorems)

`VW.Blob.intersects_gap_refuted`, `VW.Cache.Handles.copy_locked_double_release`, `VW.Cache.Handles.double_deref_hangs`, `VW.Cache.Handles.reset_locked_hangs`, `VW.Cache.lru_refuted`, `VW.Colormap.last_line_lost`, `VW.Erode.pixel_eq`, `VW.Graph.combine_null_right`, `VW.Graph.insertIn_rejects`, `VW.Graph.null_rejects`, `VW.IPMatch.cropReal_spec`, `VW.IPMatch.removeDuplicates_throws`, `VW.MatText.digits_faithful`, `VW.MatText.image_back`, `VW.Parabola.advance_spec`, `VW.Paths.dir_wrong`, `VW.Paths.makeRelative_inside`, `VW.Peaks.scale_diagonal_missed`, `VW.Pool.fifo_dispatch_order`, `VW.Quad.simplePath_injective`, `VW.Sparse.View.pixel_eq`, `VW.Sparse.overlap_lost`, `VW.TQueue.tqueue_fifo`, `VW.TQueue.tqueue_popped_sublist`, `VW.VarArray.resize_same_keeps`, `VW.VarArray.resized_clear`, `VW.View.subsample_subsample`, `VW.Warp.functor_laws`, `Verif.Geom.Polys.rep_unique`, `Verif.Mask.alpha_round`, `Verif.Mask.apply_spec`, `Verif.Mask.create_value`, `Verif.Mask.edge_value`, `Verif.Mask.mask_algebra`, `Verif.Mask.mask_basic`, `Verif.Opt.lm_huge`, `Verif.Opt.lm_nan`, `Verif.Opt.lm_sixth`, `Verif.Opt.nm_no_coordinates`

## propext, Quot.sound (155 theorems)

`VW.BBox.containsBox_iff_dense`, `VW.BBox.containsBox_iff_int`, `VW.BBox.containsBox_subset`, `VW.BBox.crop_is_intersection`, `VW.BBox.default_uint32_not_empty`, `VW.BBox.empty_iff_no_point`, `VW.BBox.empty_unchanged`, `VW.BBox.growBox_least`, `VW.BBox.grow_default_least`, `VW.BBox.grow_default_point`, `VW.BBox.grow_degenerate_lost`, `VW.BBox.grow_least`, `VW.BBox.grow_order_irrelevant`, `VW.Blob.jobs_perm`, `VW.Blob.size_spec`, `VW.Blob.threaded_none_ub`, `VW.Cache.Race.concurrent_miss_refuted`, `VW.Cache.deprioritize_race_hangs`, `VW.Census.binaryCode_unique`, `VW.Census.costOf_other`, `VW.Census.patterns`, `VW.Convert.cropped_separate`, `VW.Convert.packed_separate`, `VW.DiskPyr.make_refuses`, `VW.DiskPyr.size_pos`, `VW.DiskPyr.steps_mem`, `VW.Edge.linear_inside`, `VW.Edge.linear_one_column_undefined`, `VW.Edge.periodic_spec`, `VW.Erode.raster_eq`, `VW.Graph.combine_rejects`, `VW.Graph.exHist`, `VW.IPMatch.removeNearNodata_below`, `VW.Integral.table_in_bounds`, `VW.Log.log_lines_not_mixed`, `VW.Log.rejected_rule_ignored`, `VW.MatText.blank_line`, `VW.MatText.empty_lost`, `VW.MatText.nan_lost`, `VW.MatchIO.cut_header`, `VW.MatchIO.cut_ip`, `VW.MatchIO.cut_last`, `VW.MatchIO.cut_partial`, `VW.MatchIO.ip_roundtrip`, `VW.MatchIO.match_roundtrip`, `VW.Matrix.matrixToVector_not_square`, `VW.Names.shorten_collides`, `VW.NoData.accepted_half`, `VW.Opacity.allPx_spec`, `VW.Paths.prefix_spec_partial`, `VW.Progress.incr_order`, `VW.Progress.incr_run`, `VW.Progress.progress_empty_range`, `VW.Progress.terminal_finished`, `VW.Quad.namedTieredPath_collision`, `VW.Quad.namedTieredPath_injective_partial`, `VW.Quad.tieredPath_injective`, `VW.SGM.accum_overflow`, `VW.SGM.evaluate_buffer`, `VW.SGM.nbr_all`, `VW.SGM.prior_wf`, `VW.Skyline.inverse_spec`, `VW.Skyline.skyline_fits`, `VW.Skyline.solveForSkyline_spec`, `VW.Stats.destructiveMedian_eq`, `VW.Stats.median_perm`, `VW.Stats.outlier_brackets_empty`, `VW.Stats.outlier_brackets_few`, `VW.Stats.outlier_brackets_perm`, `VW.Stats.percentile_bin_throws`, `VW.Stats.percentile_throws`, `VW.Stats.sampleVariance_spec`, `VW.Stats.sliding_poisoned`, `VW.Stopwatch.stray_stop`, `VW.StringUtils.returns_unique`, `VW.StringUtils.string_replace_again`, `VW.Surface.block_loses`, `VW.Surface.false_not_zero`, `VW.Surface.not_flood`, `VW.VarArray.resized_spec`, `VW.View.crop_crop`, `VW.View.flipV_flipV`, `VW.View.rot180_rot180`, `VW.View.rot90ccw_moves`, `VW.View.rot90cw_moves`, `VW.View.rot90cw_rot90ccw`, `VW.View.subdivide_flags`, `VW.View.subsample_reads_outside`, `VW.View.subsample_requests_outside`, `VW.Warp.affine_ok`, `VW.Warp.bbox_empty`, `VW.Warp.expr_type`, `VW.Warp.inverse_bbox`, `VW.Window.high_window_undefined`, `Verif.Camera.Bathy.bathy_off`, `Verif.Camera.Bathy.snell_perpendicular`, `Verif.Camera.Interp.hermite_last`, `Verif.Camera.Interp.radius_one`, `Verif.Camera.Interp.threads_locked`, `Verif.Camera.Interp.tlc_short`, `Verif.Camera.adj_run`, `Verif.Camera.adj_setters`, `Verif.Camera.fresh_unique`, `Verif.Camera.no_rebuild`, `Verif.Camera.no_reflect`, `Verif.Camera.pickRays_spec`, `Verif.Camera.read_write`, `Verif.Camera.rotCenter_spec`, `Verif.Camera.toM_mul`, `Verif.Camera.toM_rot`, `Verif.Camera.valid_spec`, `Verif.Camera.view_center`, `Verif.Core.Thread.deadline_spec`, `Verif.Core.Thread.id_progress`, `Verif.Core.Thread.id_unique`, `Verif.Core.Thread.lock_holder`, `Verif.DMap.cross_returns`, `Verif.DMap.dispRange_spec`, `Verif.DMap.intersectData_spec`, `Verif.DMap.mean_row_spec`, `Verif.DMap.mean_row_stuck`, `Verif.DMap.rangeMask_rows`, `Verif.DMap.rangeMask_spec`, `Verif.DMap.rmMean_frame`, `Verif.DMap.stdWrites_fit`, `Verif.DMap.stdWrites_overflow`, `Verif.DMap.transformFunc_spec`, `Verif.DMap.transformRegion_spec`, `Verif.DMap.up_spec`, `Verif.Geom.Frames.atrans_matrix`, `Verif.Geom.Frames.frames_set_all`, `Verif.Geom.Poly.area_shoelace`, `Verif.Geom.Poly.boxesIntersect_iff`, `Verif.Geom.Poly.transforms_spec`, `Verif.Geom.Polys.appendPolygon_rep`, `Verif.Geom.Polys.appendRectangle_rep`, `Verif.Geom.Polys.closestAnno_spec`, `Verif.Geom.Polys.extractOne_rep`, `Verif.Geom.Polys.setAttr_rep`, `Verif.Geom.Polys.setPolygon_rep`, `Verif.Georef.make_spec`, `Verif.Georef.point_conversions_agree`, `Verif.Georef.reproject_keeps`, `Verif.Mask.edge_documented`, `Verif.Mask.edge_first_lost`, `Verif.Mask.edge_valid`, `Verif.Mask.in_place`, `Verif.Opt.newton_no_value`, `Verif.Opt.swarm_best`, `Verif.Opt.swarm_descends`, `Verif.Opt.swarm_evaluated`, `Verif.Opt.swarm_stuck`, `Verif.Ransac.ransac_schedule`, `Verif.Ransac.ransac_throws`, `Verif.Ransac.sample_distinct`

## propext, Classical.choice, Quot.sound (1144 theorems)

`VW.BBox.area_laws`, `VW.BBox.contract_expand`, `VW.BBox.default_neutral`, `VW.BBox.elemProd_mem`, `VW.BBox.expand_mem`, `VW.BBox.extent_laws`, `VW.BBox.growToInt_empty`, `VW.BBox.growToInt_encloses`, `VW.BBox.grow_default_out_of_range`, `VW.BBox.intersects_iff`, `VW.BBox.scale_div_cancel`, `VW.BBox.scale_mem`, `VW.BBox.translate_cancel`, `VW.BBox.translate_mem`, `VW.Bayer.bounded`, `VW.Bayer.dark_edge`, `VW.Bayer.recorded_partial`, `VW.Bayer.uniform_partial`, `VW.Blob.absorb_gap_ub`, `VW.Blob.absorb_spec`, `VW.Blob.blobIndex_queries`, `VW.Blob.blobIndex_spec`, `VW.Blob.boundingBox_spec`, `VW.Blob.image_labels_not_blobs`, `VW.Blob.intersects_iff`, `VW.Blob.joins_conn`, `VW.Blob.threaded_first_ub`, `VW.Blob.threaded_hook_ub`, `VW.Blob.threaded_sound`, `VW.Blob.threaded_spec_partial`, `VW.Blob.threaded_stale_boxes`, `VW.Blob.wipeBig_spec`, `VW.Block.block_cache_transparent`, `VW.Block.block_in_one_cell`, `VW.Block.block_index_right`, `VW.Block.block_rasterize_transparent`, `VW.Block.blocks_cover`, `VW.Block.blocks_disjoint_inside`, `VW.Block.blocks_returns`, `VW.Block.blocks_terminate`, `VW.Block.lookup_exact`, `VW.Block.prerasterize_transparent`, `VW.Block.rasterize_safe`, `VW.Block.rasterize_transparent`, `VW.Block.read_total`, `VW.Block.read_transparent`, `VW.BoxFilter.interest_flat`, `VW.BoxFilter.interest_spec`, `VW.BoxFilter.interest_transpose`, `VW.BoxFilter.not_centred_outside`, `VW.BoxFilter.obalog_borders`, `VW.BoxFilter.obalog_centred`, `VW.BoxFilter.view_spec`, `VW.CDF.few_quantiles`, `VW.CDF.first_batch_exact`, `VW.CDF.quantile_spec`, `VW.CDF.quantile_unmerged`, `VW.CDF.run_inv`, `VW.Cache.Handles.handle_lock_discipline_partial`, `VW.Cache.Race.concurrent_miss_partial`, `VW.Cache.cache_bound_after_miss`, `VW.Cache.cache_bound_fails_on_hit`, `VW.Cache.cache_bytes_after_miss_partial`, `VW.Cache.cache_lists_intact`, `VW.Cache.cache_no_ub`, `VW.Cache.cache_size_exact`, `VW.Cache.cache_size_exact_partial`, `VW.Cache.cache_size_leak`, `VW.Cache.deprioritize_atomic_partial`, `VW.Cache.deref_returns_generated`, `VW.Cache.eviction_order_partial`, `VW.Cache.generator_called_only_on_miss`, `VW.Cache.generator_throw_wedges`, `VW.Cache.held_line_stays`, `VW.Cache.resize_enforces_limit`, `VW.Census.binary_codes`, `VW.Census.binary_invariant`, `VW.Census.costBuffer_spec`, `VW.Census.cost_binary_spec`, `VW.Census.cost_ternary5`, `VW.Census.cost_ternary_spec_partial`, `VW.Census.ternary5_misses`, `VW.Census.ternary_codes`, `VW.Chipper.chip_cells`, `VW.Chipper.chip_refused`, `VW.Chipper.chip_spec`, `VW.Chipper.load_good`, `VW.Chipper.sift_good`, `VW.Colormap.below_first`, `VW.Colormap.colorAt_spec`, `VW.Colormap.one_key`, `VW.Colormap.populate_spec_partial`, `VW.Colormap.round_near`, `VW.Colormap.skipped_counts`, `VW.Composite.alphaAt_spec`, `VW.Composite.blend_depends_on_patch`, `VW.Composite.build_spec`, `VW.Composite.crop_inside`, `VW.Composite.draftAt_spec`, `VW.Composite.draft_patches_agree`, `VW.Composite.draft_spec`, `VW.Composite.fire_pos`, `VW.Composite.last_column_repeated`, `VW.Composite.levels_suffice`, `VW.Composite.listed_of_feeds`, `VW.Composite.listed_of_meets`, `VW.Composite.maskSum_spec`, `VW.Composite.mask_iff`, `VW.Composite.masks_of_alphas`, `VW.Composite.masks_partition`, `VW.Composite.prepareIn_spec`, `VW.Composite.prepare_spec`, `VW.Composite.prepare_twice`, `VW.Composite.reduce_spec`, `VW.Composite.smooth_outside`, `VW.Composite.sparseCheck_iff`, `VW.Composite.sparse_black`, `VW.Composite.stack_alpha`, `VW.Composite.stack_hides`, `VW.Composite.stack_opaque`, `VW.Composite.stack_transparent`, `VW.Composite.thin_source_lost`, `VW.Conv.conv_eval`, `VW.Conv.conv_prerasterize`, `VW.Conv.mode_shows`, `VW.Conv.sep_eval`, `VW.Conv.sep_paths_agree`, `VW.Conv.sep_paths_differ_rounding`, `VW.Conv.sep_prerasterize`, `VW.Convert.alpha_examples`, `VW.Convert.can_convert_unknown`, `VW.Convert.channels_to_planes`, `VW.Convert.convert_alpha`, `VW.Convert.convert_copies`, `VW.Convert.convert_core`, `VW.Convert.convert_iff_can`, `VW.Convert.graya_to_opaque`, `VW.Convert.mean_of_three`, `VW.Convert.one_to_int64`, `VW.Convert.opaque_greatest`, `VW.Convert.planes_not_rescaled`, `VW.Convert.planes_to_channels`, `VW.Convert.planes_unchecked`, `VW.Convert.premul_ends`, `VW.Convert.premul_near`, `VW.Convert.rescale_loses`, `VW.Convert.rescale_negative`, `VW.Convert.rescale_within_one`, `VW.Convert.rgb_divided_by_blue`, `VW.Convert.rgba_alpha_ignored`, `VW.Convert.u8_float_u8`, `VW.Convert.u8_u16_u8`, `VW.Convert.unpremul_premul`, `VW.Convert.write_read`, `VW.Corr.copy_found`, `VW.Corr.disparity_best`, `VW.Corr.even_refused`, `VW.Corr.ncc_copy`, `VW.Corr.ncc_found`, `VW.Corr.ncc_le_one`, `VW.Corr.single_invalid`, `VW.DatumCheck.check_comm`, `VW.DatumCheck.check_spec`, `VW.DiskPyr.bounds_spec`, `VW.DiskPyr.clip_aligned`, `VW.DiskPyr.clip_misses`, `VW.DiskPyr.clip_pixels`, `VW.DiskPyr.clip_scale`, `VW.DiskPyr.empty_level`, `VW.DiskPyr.make_spec`, `VW.DiskPyr.overwrite_iff`, `VW.DiskPyr.pyramidLevel_spec`, `VW.DiskPyr.samples_mem`, `VW.DiskPyr.scales_increase`, `VW.DiskPyr.size_near`, `VW.DiskPyr.steps_few`, `VW.Dist.boundedDist_spec`, `VW.Dist.boundedSignedDist_spec`, `VW.Dist.signed_sign`, `VW.Edge.constant_spec`, `VW.Edge.cylindrical_spec`, `VW.Edge.eval_inside_partial`, `VW.Edge.linear_exact_on_affine`, `VW.Edge.linear_spec_partial`, `VW.Edge.mirrored_unique`, `VW.Edge.periodic_unique`, `VW.Edge.prerasterize_read_partial`, `VW.Edge.prerasterize_total_partial`, `VW.Edge.reflect_one_pixel_undefined`, `VW.Edge.reflect_spec_partial`, `VW.Edge.sourceBBox_enough_partial`, `VW.Edge.sourceBBox_in_image_partial`, `VW.Erode.create_spec`, `VW.Erode.history_spec`, `VW.FillHoles.filled_bounds`, `VW.FillHoles.filled_iff`, `VW.FillHoles.filled_plane`, `VW.FillHoles.raster_spec`, `VW.FillHoles.raster_transparent`, `VW.FillHoles.smoothed_spec`, `VW.FillHoles.smoothing_depends_on_tiles`, `VW.Functions.floor_defined`, `VW.Functions.floor_spec`, `VW.Functions.hamming_metric`, `VW.Functions.hamming_spec`, `VW.Functions.mod_eq_emod`, `VW.Functions.mod_in_range`, `VW.Functions.mod_spec`, `VW.Functions.nextpow2_overflow`, `VW.Functions.nextpow2_spec`, `VW.Functions.round_defined`, `VW.Functions.round_spec`, `VW.Graph.apply_forest`, `VW.Graph.combine_result`, `VW.Graph.findVal_spec`, `VW.Graph.find_changes_nothing`, `VW.Graph.find_compresses`, `VW.Graph.find_iff_connected`, `VW.Graph.find_representative`, `VW.Graph.find_total`, `VW.Graph.mst_apply`, `VW.Graph.mst_minimal_nonneg_partial`, `VW.Graph.mst_minimal_partial`, `VW.Graph.never_hangs`, `VW.Graph.valid_iff_own_find`, `VW.Grassfire.grassfire_ignore_spec`, `VW.Grassfire.grassfire_spec`, `VW.IPMatch.cropInt_negative`, `VW.IPMatch.cropInt_spec`, `VW.IPMatch.hammingWide_spec`, `VW.IPMatch.hamming_metric_spec`, `VW.IPMatch.indices_length`, `VW.IPMatch.indices_spec`, `VW.IPMatch.l2_metric`, `VW.IPMatch.l2_spec`, `VW.IPMatch.lessThan_iff`, `VW.IPMatch.lessThan_weak_order`, `VW.IPMatch.oriDiff_degrees`, `VW.IPMatch.oriDiff_spec`, `VW.IPMatch.pairs_misaligned`, `VW.IPMatch.pairs_spec`, `VW.IPMatch.pairs_undefined`, `VW.IPMatch.pickPairs_spec`, `VW.IPMatch.position_spec`, `VW.IPMatch.removeDuplicates_idem`, `VW.IPMatch.removeDuplicates_spec`, `VW.IPMatch.removeNearNodata_spec`, `VW.IPMatch.removeNearNodata_undefined`, `VW.IPMatch.scaleOri_spec`, `VW.IPMatch.simpleIndex_spec`, `VW.IPMatch.simpleMatch_spec`, `VW.IPMatch.simple_ambiguous`, `VW.IPMatch.sort_not_unique`, `VW.IPMatch.sort_unique`, `VW.Inpaint.hole_values_matter`, `VW.Inpaint.newValue_bounds`, `VW.Inpaint.newValue_default`, `VW.Inpaint.newValue_dot`, `VW.Inpaint.prerasterize_spec`, `VW.Inpaint.processed_iff`, `VW.Inpaint.right_edge_not_filled`, `VW.Inpaint.task_spec`, `VW.Integral.block_sum`, `VW.Integral.hHaar_spec`, `VW.Integral.haar_even`, `VW.Integral.haar_square`, `VW.Integral.table_spec`, `VW.Integral.vHaar_spec`, `VW.Integral.xSecond_const`, `VW.Integral.xSecond_spec`, `VW.Integral.xyDeriv_spec`, `VW.Integral.ySecond_spec`, `VW.Line.inside_box`, `VW.Line.near_line`, `VW.Line.reversed_line_drops_start`, `VW.Line.starts_and_stops`, `VW.Line.visits_exactly`, `VW.Linescan.err_zero`, `VW.Linescan.findPerpVecs_spec`, `VW.Linescan.unit_eq`, `VW.Log.accepted_iff`, `VW.Log.default_rules`, `VW.Log.latest_rule_decides`, `VW.Log.log_line_output`, `VW.Log.log_per_thread_order`, `VW.Log.wildcard_semantics`, `VW.MatText.read_spec`, `VW.MatText.read_write_partial`, `VW.Matrix.det2_correct`, `VW.Matrix.det_correct_partial`, `VW.Matrix.det_mul_partial`, `VW.Matrix.det_zero_wrong`, `VW.Matrix.inverse2_correct`, `VW.Matrix.inverse2_eq_inverse`, `VW.Matrix.inverse_correct`, `VW.Matrix.inverse_none_iff_det_partial`, `VW.Matrix.lu_correct`, `VW.Matrix.lu_multipliers_le_one`, `VW.Matrix.vectorToMatrix_none`, `VW.Matrix.vector_roundtrip_partial`, `VW.Names.clean_spec`, `VW.Names.ip_distinct`, `VW.Names.ip_short`, `VW.Names.match_collides`, `VW.Names.match_distinct_partial`, `VW.Names.match_plain`, `VW.Names.match_short`, `VW.Names.shorten_distinct`, `VW.Names.shorten_one`, `VW.Names.strip_inside`, `VW.Names.strip_other`, `VW.Names.strip_prefix`, `VW.Names.vwip_short`, `VW.NoData.accepted_iff`, `VW.NoData.average_bounds`, `VW.NoData.average_isSome`, `VW.NoData.average_spec`, `VW.NoData.avgRaster_eq`, `VW.NoData.passAt_bounds`, `VW.NoData.passAt_negative`, `VW.NoData.passAt_spec`, `VW.NoData.passes_bounds`, `VW.NoData.passes_keep`, `VW.NoData.passes_reach`, `VW.NoData.passes_size`, `VW.Opacity.nonzeroBox_least`, `VW.Opacity.nonzeroBox_spec`, `VW.Orient.below_counted`, `VW.Orient.equal_mode_missed`, `VW.Orient.filter_even`, `VW.Orient.filter_plain`, `VW.Orient.filter_wrap`, `VW.Orient.filter_wrap_outside`, `VW.Orient.filter_wrap_sum`, `VW.Orient.fitPeakScale_peak`, `VW.Orient.fitPeak_frame`, `VW.Orient.fitPeak_outside`, `VW.Orient.fitPeak_peak`, `VW.Orient.fitPeak_rejected`, `VW.Orient.fit_strict`, `VW.Orient.fit_vertex`, `VW.Orient.flat_nan`, `VW.Orient.inBin_unique`, `VW.Orient.interpolate_sum`, `VW.Orient.interpolation_wrong`, `VW.Orient.low_mode_reported`, `VW.Orient.modes_empty`, `VW.Orient.modes_spec_partial`, `VW.Orient.nonMax_spec`, `VW.Orient.only_centre`, `VW.Orient.parabola_exists`, `VW.Orient.pi_outside`, `VW.Orient.rejected_but_moved`, `VW.Orient.share_wrong`, `VW.Orient.weightedHistogram_spec_partial`, `VW.Otsu.between_spec`, `VW.Otsu.mostly_one_value`, `VW.Otsu.otsuSampled_spec`, `VW.Otsu.otsu_range`, `VW.Otsu.otsu_spec`, `VW.Otsu.percentileBounds_spec`, `VW.Otsu.percentileConvert_spec`, `VW.Otsu.same_iff`, `VW.Otsu.samples_one`, `VW.Otsu.samples_spec`, `VW.Otsu.stretch_mono`, `VW.Otsu.u8_spec`, `VW.Otsu.versions_differ`, `VW.Parabola.collect_spec`, `VW.Parabola.findPeak_exact`, `VW.Parabola.findPeak_spec`, `VW.Parabola.fit_exact`, `VW.Parabola.fit_least`, `VW.Parabola.next_spec`, `VW.Parabola.offset_flat`, `VW.Parabola.offset_lowest`, `VW.Parabola.refine_exact`, `VW.Parabola.refine_far`, `VW.Parabola.refine_flat`, `VW.Parabola.refine_saddle`, `VW.Parabola.refine_spec`, `VW.Paths.filesWithExt_spec`, `VW.Paths.filesWithPrefix_spec_partial`, `VW.Paths.makeRelative_spec_partial`, `VW.Paths.prefix_dir`, `VW.Paths.prefix_is_dir`, `VW.Peaks.findPeaks3_spec_partial`, `VW.Peaks.findPeaks3_throw`, `VW.Peaks.findPeaks_spec`, `VW.Peaks.maxima_apart`, `VW.Peaks.no_peaks`, `VW.Peaks.not_closest`, `VW.Peaks.octave_spec`, `VW.Peaks.scale_is_blur`, `VW.Peaks.scale_roundtrip`, `VW.Peaks.sigma_octave`, `VW.Pool.destructor_after_join_partial`, `VW.Pool.fifo_runs_once`, `VW.Pool.fifo_start_order_partial`, `VW.Pool.fifo_tasks_accounted`, `VW.Pool.join_all_terminates`, `VW.Pool.join_blocks_while_queued`, `VW.Pool.join_blocks_while_running`, `VW.Pool.join_returns_all_finished`, `VW.Pool.join_returns_idle`, `VW.Pool.kill_and_join_hangs`, `VW.Pool.kill_and_join_terminates_partial`, `VW.Pool.no_join_after_quit`, `VW.Pool.ordered_completes`, `VW.Pool.ordered_dispatch_order`, `VW.Pool.ordered_latest_wins`, `VW.Pool.ordered_no_gap`, `VW.Pool.ordered_stale_blocks`, `VW.Pool.ordered_start_order_partial`, `VW.Pool.pool_concurrency_limit`, `VW.Pool.pool_no_ub_alive`, `VW.Pose.quarter_found`, `VW.Pose.quarter_solves`, `VW.Pose.relativeOrientation_exact`, `VW.Pose.relativeOrientation_spec`, `VW.Progress.abort_seen`, `VW.Progress.bar_fits`, `VW.Progress.progress_report`, `VW.Progress.report_within`, `VW.Progress.task_monotone`, `VW.Quad.boxFilter_value`, `VW.Quad.branch_partition`, `VW.Quad.cull_loses_data`, `VW.Quad.gen_square`, `VW.Quad.generate_content`, `VW.Quad.generate_cover`, `VW.Quad.generate_crop`, `VW.Quad.generate_names`, `VW.Quad.level_cover`, `VW.Quad.odd_tiles_fail`, `VW.Quad.root_covers`, `VW.Quad.root_region_covers`, `VW.Quad.write_crop`, `VW.Quad.write_crop_leaf`, `VW.SGM.accum_sum`, `VW.SGM.buffer_disjoint`, `VW.SGM.choose_best`, `VW.SGM.choose_in_range`, `VW.SGM.defaults_ok`, `VW.SGM.dirPixels_nodup`, `VW.SGM.dirPixels_perm`, `VW.SGM.evaluate_bound`, `VW.SGM.evaluate_restart`, `VW.SGM.evaluate_spec`, `VW.SGM.index_inverse`, `VW.SGM.index_of_disp`, `VW.SGM.lineLength_spec`, `VW.SGM.line_fits`, `VW.SGM.lookup_spec`, `VW.SGM.mask_spec`, `VW.SGM.mem_dirPixels`, `VW.SGM.on_line`, `VW.SGM.on_one_line`, `VW.SGM.pathCost_bound`, `VW.SGM.path_not_optimal`, `VW.SGM.path_optimal`, `VW.SGM.path_optimal_nested`, `VW.SGM.prior_spec`, `VW.SGM.sse_agrees`, `VW.SGM.stretch_start`, `VW.SGM.tie_picks_worst`, `VW.Settings.api_holds_partial`, `VW.Settings.api_lost`, `VW.Settings.cache_size_lost`, `VW.Settings.cache_size_partial`, `VW.Settings.disabled_holds`, `VW.Settings.edit_unseen`, `VW.Settings.getter_fixed`, `VW.Settings.logs_twice`, `VW.Settings.parse_val`, `VW.Settings.poll_rate`, `VW.Settings.reload_depth`, `VW.Settings.reload_eq`, `VW.Settings.unreadable_not_retried`, `VW.Skyline.get_put`, `VW.Skyline.ldl_factors`, `VW.Skyline.multiSolve_posdef`, `VW.Skyline.reorganize_solves`, `VW.Skyline.solve_posdef`, `VW.Skyline.solve_solves`, `VW.Sparse.absorbAll_spec`, `VW.Sparse.absorb_spec`, `VW.Sparse.insert_spec`, `VW.SpatialTree.History.spec`, `VW.SpatialTree.LevelHistory.settled`, `VW.SpatialTree.add_returns`, `VW.SpatialTree.add_spec`, `VW.SpatialTree.closest_correct`, `VW.SpatialTree.closest_flat_throws`, `VW.SpatialTree.closest_misses`, `VW.SpatialTree.closest_single`, `VW.SpatialTree.contains_all`, `VW.SpatialTree.contains_one`, `VW.SpatialTree.default_returns_iff`, `VW.SpatialTree.flat_outside_never_added`, `VW.SpatialTree.growOnGrid_some`, `VW.SpatialTree.heuristic_le`, `VW.SpatialTree.intersects_all`, `VW.SpatialTree.maxPop_spec`, `VW.SpatialTree.mixed_levels_hang`, `VW.SpatialTree.ofPrims_flat`, `VW.SpatialTree.ofPrims_returns`, `VW.SpatialTree.overlap_pairs_once`, `VW.SpatialTree.placed_smallest`, `VW.SpatialTree.point_never_added`, `VW.Sphere.containsSphere_iff`, `VW.Sphere.crop_empty`, `VW.Sphere.crop_enlarges`, `VW.Sphere.crop_spec`, `VW.Sphere.emptiness`, `VW.Sphere.growAll_contains`, `VW.Sphere.growPoint_not_smallest`, `VW.Sphere.growPoint_spec`, `VW.Sphere.growSphere_spec`, `VW.Sphere.intersects_iff`, `VW.Sphere.motions`, `VW.Spline.closed_end_undefined`, `VW.Spline.eval_spec_partial`, `VW.Spline.make_spec`, `VW.Spline.prime_at_points_partial`, `VW.Spline.prime_iff`, `VW.Spline.prime_wrong_between`, `VW.Spline.smooth`, `VW.Spline.through_points`, `VW.Stats.bin_near`, `VW.Stats.bin_not_containing`, `VW.Stats.ewVarU8_wrong`, `VW.Stats.fill_bins`, `VW.Stats.fill_total`, `VW.Stats.init_centers`, `VW.Stats.meanAcc_spec`, `VW.Stats.mean_eq`, `VW.Stats.median_between`, `VW.Stats.median_half`, `VW.Stats.minMax_spec`, `VW.Stats.nmad_spec`, `VW.Stats.outlier_brackets`, `VW.Stats.outlier_brackets_inverted`, `VW.Stats.outlier_brackets_neg`, `VW.Stats.outlier_brackets_sym`, `VW.Stats.percentile_bin`, `VW.Stats.percentile_spec`, `VW.Stats.sliding_pop_last`, `VW.Stats.sliding_spec`, `VW.Stats.varAcc_spec`, `VW.Stopwatch.stopwatch_spec`, `VW.StringUtils.separate_spec`, `VW.StringUtils.string_replace_char`, `VW.StringUtils.string_replace_diverges`, `VW.StringUtils.string_replace_partial`, `VW.Subdivide.subdivide_spec`, `VW.Surface.block_sound`, `VW.Surface.border_flat`, `VW.Surface.fill_iff`, `VW.Surface.fill_sound_partial`, `VW.Surface.meanFill_bounds`, `VW.Surface.meanFill_spec`, `VW.Surface.normal_spec`, `VW.Surface.plane_normal`, `VW.Surface.shade_spec`, `VW.TQueue.tqueue_pop_front`, `VW.TQueue.tqueue_wakes`, `VW.Utm.band_V`, `VW.Utm.band_X`, `VW.Utm.band_top`, `VW.Utm.band_total`, `VW.Utm.norway_wrapped_wrong`, `VW.Utm.svalbard_north_wrong`, `VW.Utm.svalbard_wrapped_wrong`, `VW.Utm.wrap_spec`, `VW.Utm.zone_61`, `VW.Utm.zone_range`, `VW.Utm.zone_regular`, `VW.Utm.zone_standard_partial`, `VW.VarArray.run_refines`, `VW.VarArray.step_rel`, `VW.VecUtil.clamp_64`, `VW.VecUtil.formBasis_spec_partial`, `VW.VecUtil.nearest_unique`, `VW.VecUtil.planeTangents_spec_partial`, `VW.VecUtil.roundAndClamp_spec`, `VW.VecUtil.round_nearest`, `VW.VecUtil.tangents_not_perpendicular`, `VW.VecUtil.up_nan`, `VW.View.accessor_reads`, `VW.View.complete_of_inside`, `VW.View.full_size_outside`, `VW.View.prerasterize_transparent_partial`, `VW.View.raster_reads`, `VW.View.rasterize_inside_partial`, `VW.View.rasterize_transparent_partial`, `VW.View.subdivide_full_only`, `VW.View.subdivide_full_size`, `VW.View.subdivide_inside`, `VW.View.subdivide_partition`, `VW.Warp.affine2mat_correct`, `VW.Warp.affine_formula`, `VW.Warp.approxTable_exact`, `VW.Warp.approx_affine`, `VW.Warp.approx_at_grid`, `VW.Warp.approx_between`, `VW.Warp.approx_checked`, `VW.Warp.approx_small`, `VW.Warp.approx_tolerance_wrong`, `VW.Warp.bbox_continuous_wrong`, `VW.Warp.bbox_covers_affine`, `VW.Warp.bbox_covers_partial`, `VW.Warp.bbox_pole_wrong`, `VW.Warp.bbox_roundtrip_wrong`, `VW.Warp.bbox_tight`, `VW.Warp.bicubic_cell`, `VW.Warp.bicubic_overshoot`, `VW.Warp.bicubic_quadratic`, `VW.Warp.bilinear_between`, `VW.Warp.bilinear_cell`, `VW.Warp.bilinear_ramp`, `VW.Warp.continuous_covers_partial`, `VW.Warp.discontinuous_covers`, `VW.Warp.eval_at_pixel`, `VW.Warp.eval_local`, `VW.Warp.eval_reads`, `VW.Warp.expr_proj`, `VW.Warp.expr_roundtrip`, `VW.Warp.extended_shows`, `VW.Warp.fast_eq_full_partial`, `VW.Warp.interpPre_read`, `VW.Warp.nearest_spec`, `VW.Warp.noData_identity`, `VW.Warp.noData_loses_border`, `VW.Warp.noData_no_extension`, `VW.Warp.noData_raster_partial`, `VW.Warp.project_mul`, `VW.Warp.resampledSize_spec`, `VW.Warp.resize_within`, `VW.Warp.rotate_correct`, `VW.Warp.transformedBBox_half_open`, `VW.Warp.transformedBBox_mem`, `VW.Warp.warp_identity`, `VW.Warp.warp_magnify`, `VW.Warp.warp_raster_affine`, `VW.Warp.warp_raster_discontinuous`, `VW.Warp.warp_raster_partial`, `VW.Warp.warp_reads_outside`, `VW.Warp.warp_tolerance_affine`, `VW.Warp.warp_translate`, `VW.Window.invalid_drops_valid`, `VW.Window.invalid_poisons`, `VW.Window.medianAt_spec`, `VW.Window.medianTile_eq`, `VW.Window.one_pixel_throws`, `VW.Window.stdDev_odd_partial`, `VW.Window.stdDev_spec_partial`, `VW.Window.stdDev_tile`, `Verif.BA.network_connected`, `Verif.BA.network_covers`, `Verif.BA.network_direction`, `Verif.BA.network_disjoint`, `Verif.BA.network_drops`, `Verif.BA.network_measures`, `Verif.BA.network_once`, `Verif.BA.network_self`, `Verif.BA.network_splits`, `Verif.BA.network_total`, `Verif.BA.relation_common`, `Verif.BA.relation_connections`, `Verif.BA.relation_features`, `Verif.BA.relation_in_camera`, `Verif.BA.relation_map`, `Verif.BA.relation_multimap`, `Verif.BA.relation_nodes`, `Verif.BA.relation_symmetric`, `Verif.BA.relation_total`, `Verif.BA.thin_spec`, `Verif.Camera.Bathy.areMasked_spec`, `Verif.Camera.Bathy.clone_spec`, `Verif.Camera.Bathy.cround_near`, `Verif.Camera.Bathy.curved_exact`, `Verif.Camera.Bathy.fit_spec`, `Verif.Camera.Bathy.flat_exact`, `Verif.Camera.Bathy.flat_nadir`, `Verif.Camera.Bathy.land_spec`, `Verif.Camera.Bathy.one_plane`, `Verif.Camera.Bathy.rayPlane_behind`, `Verif.Camera.Bathy.rayPlane_spec`, `Verif.Camera.Bathy.refracted_unique`, `Verif.Camera.Bathy.setBathy_failed`, `Verif.Camera.Bathy.setBathy_spec`, `Verif.Camera.Bathy.snell_complete`, `Verif.Camera.Bathy.snell_spec`, `Verif.Camera.Bathy.surfaces_confused`, `Verif.Camera.Bathy.two_planes`, `Verif.Camera.Bathy.two_planes_unbent`, `Verif.Camera.Interp.accel_exact`, `Verif.Camera.Interp.accel_jump`, `Verif.Camera.Interp.accel_spec`, `Verif.Camera.Interp.grid_in`, `Verif.Camera.Interp.grid_left`, `Verif.Camera.Interp.grid_left_slope`, `Verif.Camera.Interp.grid_left_two`, `Verif.Camera.Interp.grid_node`, `Verif.Camera.Interp.grid_right_outside`, `Verif.Camera.Interp.hermite_exact`, `Verif.Camera.Interp.hermite_spec`, `Verif.Camera.Interp.lagrangeUni_exact`, `Verif.Camera.Interp.lagrangeUni_last`, `Verif.Camera.Interp.lagrangeUni_spec`, `Verif.Camera.Interp.lagrangeVar_exact`, `Verif.Camera.Interp.lagrangeVar_sample`, `Verif.Camera.Interp.lagrangeVar_spec`, `Verif.Camera.Interp.linear_edge`, `Verif.Camera.Interp.linear_spec`, `Verif.Camera.Interp.quatVar_sample`, `Verif.Camera.Interp.quatVar_signs`, `Verif.Camera.Interp.quatVar_spec`, `Verif.Camera.Interp.slerpPose_spec`, `Verif.Camera.Interp.slerpPose_unit`, `Verif.Camera.Interp.smoothPose_spec`, `Verif.Camera.Interp.smooth_const`, `Verif.Camera.Interp.smooth_misses`, `Verif.Camera.Interp.smooth_none`, `Verif.Camera.Interp.smooth_spec`, `Verif.Camera.Interp.threads_race`, `Verif.Camera.Interp.through_spec`, `Verif.Camera.Interp.times_not_checked`, `Verif.Camera.Interp.tlcTime_spec`, `Verif.Camera.Interp.tlc_decreasing`, `Verif.Camera.Interp.uniOk_spec`, `Verif.Camera.Interp.weights_spec`, `Verif.Camera.Interp.window_spec`, `Verif.Camera.Lens.adj_formula`, `Verif.Camera.Lens.adj_tsai`, `Verif.Camera.Lens.adj_zero`, `Verif.Camera.Lens.brown_formula`, `Verif.Camera.Lens.brown_zero`, `Verif.Camera.Lens.fisheye_formula`, `Verif.Camera.Lens.fisheye_injective`, `Verif.Camera.Lens.fov_accepts`, `Verif.Camera.Lens.fov_distort_undistort`, `Verif.Camera.Lens.fov_large_flips`, `Verif.Camera.Lens.fov_undistort_distort`, `Verif.Camera.Lens.fov_undistort_wraps`, `Verif.Camera.Lens.generic_distorted`, `Verif.Camera.Lens.generic_exact`, `Verif.Camera.Lens.lens_read_write`, `Verif.Camera.Lens.lens_tiny_focal`, `Verif.Camera.Lens.photo_formula`, `Verif.Camera.Lens.photo_scale_wrong`, `Verif.Camera.Lens.photo_zero`, `Verif.Camera.Lens.read_extra`, `Verif.Camera.Lens.read_perm`, `Verif.Camera.Lens.read_write`, `Verif.Camera.Lens.tsai_centre`, `Verif.Camera.Lens.tsai_formula`, `Verif.Camera.Lens.tsai_jacobian`, `Verif.Camera.Lens.tsai_old_file`, `Verif.Camera.Lens.tsai_scale_free`, `Verif.Camera.Lens.tsai_scale_wrong`, `Verif.Camera.Lens.tsai_zero`, `Verif.Camera.Rpc.affine_round_trip`, `Verif.Camera.Rpc.degree_count`, `Verif.Camera.Rpc.distortion_value`, `Verif.Camera.Rpc.identity_value`, `Verif.Camera.Rpc.increment_spec`, `Verif.Camera.Rpc.pack_eq`, `Verif.Camera.Rpc.read_ignores_leading`, `Verif.Camera.Rpc.read_negative_degree`, `Verif.Camera.Rpc.read_valid`, `Verif.Camera.Rpc.read_write`, `Verif.Camera.Rpc.reset_spec`, `Verif.Camera.Rpc.tiny_focal`, `Verif.Camera.Rpc.unpack_all`, `Verif.Camera.Rpc.unpack_valid`, `Verif.Camera.Rpc.valid_iff`, `Verif.Camera.adj_consistent`, `Verif.Camera.adj_spec`, `Verif.Camera.adj_transform`, `Verif.Camera.adj_transform_stale`, `Verif.Camera.axis_matrix`, `Verif.Camera.axis_round`, `Verif.Camera.cahv_stereo`, `Verif.Camera.check_spec`, `Verif.Camera.drift`, `Verif.Camera.ecef_spec`, `Verif.Camera.epipolar_rows`, `Verif.Camera.epipolar_rows_fail`, `Verif.Camera.epipolar_spec`, `Verif.Camera.euler_lock`, `Verif.Camera.euler_matrix`, `Verif.Camera.euler_new_axes`, `Verif.Camera.euler_round`, `Verif.Camera.focal_zero`, `Verif.Camera.inv_spec`, `Verif.Camera.inverse_m3`, `Verif.Camera.make_spec`, `Verif.Camera.matrix_axis_round`, `Verif.Camera.move_rigid`, `Verif.Camera.multi_exact`, `Verif.Camera.multi_pair`, `Verif.Camera.multi_spec`, `Verif.Camera.nearlyParallel_spec`, `Verif.Camera.normalize_spec`, `Verif.Camera.ofM_det_neg`, `Verif.Camera.ofM_reflection`, `Verif.Camera.ofM_toM`, `Verif.Camera.ofPin_spec`, `Verif.Camera.opposite_nan`, `Verif.Camera.pair_exact`, `Verif.Camera.pair_scale`, `Verif.Camera.pair_spec`, `Verif.Camera.pair_swap`, `Verif.Camera.params_project`, `Verif.Camera.pin_epipolar`, `Verif.Camera.pin_epipolar_frame`, `Verif.Camera.pin_round_trip`, `Verif.Camera.pin_vector_spec`, `Verif.Camera.pixel_iff`, `Verif.Camera.plane_spec`, `Verif.Camera.point_exact`, `Verif.Camera.qXYZ_lock`, `Verif.Camera.qXYZ_lock_inexact`, `Verif.Camera.qXYZ_round`, `Verif.Camera.rayDistSq_spec`, `Verif.Camera.rays_exact`, `Verif.Camera.read_short`, `Verif.Camera.rebuild_spec`, `Verif.Camera.reflect_behind`, `Verif.Camera.reflect_front`, `Verif.Camera.rot_dot`, `Verif.Camera.rotate_spec`, `Verif.Camera.round_trip`, `Verif.Camera.run_fresh`, `Verif.Camera.scale_left_handed`, `Verif.Camera.scale_spec`, `Verif.Camera.setters_spec`, `Verif.Camera.slerpN_some`, `Verif.Camera.slerpN_value`, `Verif.Camera.slerpN_zero`, `Verif.Camera.slerp_ends`, `Verif.Camera.slerp_unit`, `Verif.Camera.strip_spec`, `Verif.Camera.toM_ofM`, `Verif.Camera.toPin_changes`, `Verif.Camera.toPin_skew`, `Verif.Camera.toPin_spec`, `Verif.Camera.transform4_spec`, `Verif.Camera.transform_spec`, `Verif.Camera.triangulate_cases`, `Verif.Camera.triangulate_exact`, `Verif.Camera.vector_spec`, `Verif.Camera.xyzQ_spec`, `Verif.DMap.cross_frame`, `Verif.DMap.cross_idem`, `Verif.DMap.cross_injective`, `Verif.DMap.cross_spec`, `Verif.DMap.cutoff_rank`, `Verif.DMap.cutoff_spec`, `Verif.DMap.mask_full`, `Verif.DMap.mask_out_of_range`, `Verif.DMap.mask_tile`, `Verif.DMap.padBox_covers`, `Verif.DMap.rmMean_spec`, `Verif.DMap.rmStd_spec`, `Verif.DMap.rmThresh_extremes`, `Verif.DMap.rmThresh_spec`, `Verif.DMap.stdDevImage_even`, `Verif.DMap.stdDevImage_odd`, `Verif.DMap.subBox_covers`, `Verif.DMap.subSize_spec`, `Verif.DMap.sub_bounds`, `Verif.DMap.sub_bounds_int`, `Verif.DMap.sub_constant`, `Verif.DMap.sub_up`, `Verif.DMap.sub_valid`, `Verif.DMap.upBox_covers`, `Verif.Datum.above_surface`, `Verif.Datum.cartesian_round_trip`, `Verif.Datum.centre_wrong`, `Verif.Datum.disc_round_trip`, `Verif.Datum.equator_round_trip`, `Verif.Datum.geocentricLatitude_spec`, `Verif.Datum.geocentricLatitude_sphere`, `Verif.Datum.geocentricRadius_pole`, `Verif.Datum.geocentricRadius_spec`, `Verif.Datum.geodetic_round_trip`, `Verif.Datum.inner_round_trip`, `Verif.Datum.intersect_behind`, `Verif.Datum.intersect_spec`, `Verif.Datum.intersect_zero`, `Verif.Datum.inverseFlattening_spec`, `Verif.Datum.longitude_spec`, `Verif.Datum.near_centre`, `Verif.Datum.ned_east_down`, `Verif.Datum.ned_north`, `Verif.Datum.ned_sphere`, `Verif.Datum.radiusOfCurvature_spec`, `Verif.Datum.radius_not_geodetic`, `Verif.Datum.radius_spec`, `Verif.Datum.toCartesian_spec`, `Verif.FileIO.get_count`, `Verif.FileIO.get_fails`, `Verif.FileIO.get_far`, `Verif.FileIO.get_near`, `Verif.FileIO.get_open`, `Verif.FileIO.get_wrong`, `Verif.FileIO.none_open`, `Verif.FileIO.open_bound`, `Verif.FileIO.references_stay_open`, `Verif.Geom.Frames.atrans_matrix_lost`, `Verif.Geom.Frames.frames_apart`, `Verif.Geom.Frames.frames_compose`, `Verif.Geom.Frames.frames_get`, `Verif.Geom.Frames.frames_inverse`, `Verif.Geom.Frames.frames_parent`, `Verif.Geom.Frames.frames_position`, `Verif.Geom.Frames.frames_self`, `Verif.Geom.Frames.frames_set`, `Verif.Geom.Frames.frames_set_assigns`, `Verif.Geom.Frames.frames_set_below`, `Verif.Geom.Frames.frames_set_inside`, `Verif.Geom.Frames.frames_set_outside`, `Verif.Geom.Frames.frames_set_rel`, `Verif.Geom.Frames.frames_world`, `Verif.Geom.Frames.store_add`, `Verif.Geom.Frames.store_del`, `Verif.Geom.Frames.store_del_duplicates`, `Verif.Geom.Frames.store_del_one`, `Verif.Geom.Frames.store_frame_names`, `Verif.Geom.Frames.store_full_name`, `Verif.Geom.Frames.store_full_name_injective`, `Verif.Geom.Frames.store_is_member`, `Verif.Geom.Frames.store_lookup_absolute`, `Verif.Geom.Frames.store_lookup_full_name`, `Verif.Geom.Frames.store_lookup_name`, `Verif.Geom.Frames.store_lookup_scope`, `Verif.Geom.Frames.store_lookup_scope_ignored`, `Verif.Geom.Frames.store_merge`, `Verif.Geom.Frames.store_merge_start`, `Verif.Geom.Frames.store_reserved_name`, `Verif.Geom.Frames.store_returns`, `Verif.Geom.Frames.store_root_names`, `Verif.Geom.Frames.store_roots`, `Verif.Geom.Frames.store_set_parent`, `Verif.Geom.Frames.store_set_parent_cycle`, `Verif.Geom.Frames.store_set_parent_foreign`, `Verif.Geom.Frames.store_sibling_names`, `Verif.Geom.Frames.tree_ancestry`, `Verif.Geom.Frames.tree_breadth_first`, `Verif.Geom.Frames.tree_children`, `Verif.Geom.Frames.tree_cycle`, `Verif.Geom.Frames.tree_delete`, `Verif.Geom.Frames.tree_is_ancestor_of`, `Verif.Geom.Frames.tree_last_common_ancestor`, `Verif.Geom.Frames.tree_last_common_ancestor_symm`, `Verif.Geom.Frames.tree_new`, `Verif.Geom.Frames.tree_num_offsprings`, `Verif.Geom.Frames.tree_parent_alloc`, `Verif.Geom.Frames.tree_post_order`, `Verif.Geom.Frames.tree_post_order_late`, `Verif.Geom.Frames.tree_pre_order`, `Verif.Geom.Frames.tree_pre_order_siblings`, `Verif.Geom.Frames.tree_recursive_delete`, `Verif.Geom.Frames.tree_root`, `Verif.Geom.Frames.tree_set_parent`, `Verif.Geom.Poly.area_reverse`, `Verif.Geom.Poly.area_transform`, `Verif.Geom.Poly.components_spec`, `Verif.Geom.Poly.cutEdge_spec`, `Verif.Geom.Poly.cutPoly_contains`, `Verif.Geom.Poly.cutPoly_in_window`, `Verif.Geom.Poly.cutPoly_inside`, `Verif.Geom.Poly.cutPoly_outside`, `Verif.Geom.Poly.cutPoly_unchanged`, `Verif.Geom.Poly.cutToHalf_area`, `Verif.Geom.Poly.cutToHalf_edges`, `Verif.Geom.Poly.cutToHalf_vertices`, `Verif.Geom.Poly.edgeBox_iff`, `Verif.Geom.Poly.edgesIntersect_complete`, `Verif.Geom.Poly.edgesIntersect_gap`, `Verif.Geom.Poly.edgesIntersect_parallel`, `Verif.Geom.Poly.edgesIntersect_point`, `Verif.Geom.Poly.expandBox_other`, `Verif.Geom.Poly.expandBox_spec`, `Verif.Geom.Poly.horizEdge_iff`, `Verif.Geom.Poly.inPoly_iff`, `Verif.Geom.Poly.minDist_spec`, `Verif.Geom.Poly.minPt_spec`, `Verif.Geom.Poly.windRay_eq`, `Verif.Geom.Poly.wind_reverse`, `Verif.Geom.Polys.appendAndShift_rep`, `Verif.Geom.Polys.appendPolygons_rep`, `Verif.Geom.Polys.aroundCenter_spec`, `Verif.Geom.Polys.bdBox_spec`, `Verif.Geom.Polys.changeVertex_rep`, `Verif.Geom.Polys.clip_rep`, `Verif.Geom.Polys.clip_spec`, `Verif.Geom.Polys.closestEdge_open`, `Verif.Geom.Polys.closestEdge_spec`, `Verif.Geom.Polys.closestVertex_spec`, `Verif.Geom.Polys.cloud_roundtrip`, `Verif.Geom.Polys.cutPoly_beyond`, `Verif.Geom.Polys.cutPoly_hull`, `Verif.Geom.Polys.eraseBox_spec`, `Verif.Geom.Polys.eraseMarkedElements_eq`, `Verif.Geom.Polys.eraseMarked_rep`, `Verif.Geom.Polys.eraseOne_rep`, `Verif.Geom.Polys.eraseVertex_rep`, `Verif.Geom.Polys.extractMarked_rep`, `Verif.Geom.Polys.file_after_empty`, `Verif.Geom.Polys.file_blank`, `Verif.Geom.Polys.file_not_idempotent`, `Verif.Geom.Polys.file_opens`, `Verif.Geom.Polys.file_roundtrip`, `Verif.Geom.Polys.insertVertex_rep`, `Verif.Geom.Polys.mark_eq`, `Verif.Geom.Polys.mark_spec`, `Verif.Geom.Polys.move_rep`, `Verif.Geom.Polys.pieces_clipped`, `Verif.Geom.Polys.replaceOne_rep`, `Verif.Geom.Polys.reverseMarked_rep`, `Verif.Geom.Polys.reverse_rep`, `Verif.Geom.Polys.shiftEdge_rep`, `Verif.Geom.Polys.shiftMarked_rep`, `Verif.Geom.Polys.shiftOnePoly_rep`, `Verif.Geom.Polys.sortRect_clockwise`, `Verif.Geom.Polys.sortRect_spec`, `Verif.Geom.Polys.sort_inside`, `Verif.Geom.Polys.sort_spec`, `Verif.Geom.Polys.transformMarked_rep`, `Verif.Georef.affine_round_trip`, `Verif.Georef.area_shift_iff`, `Verif.Georef.boxes_boundary`, `Verif.Georef.corner_missed`, `Verif.Georef.crop_keeps`, `Verif.Georef.crop_position`, `Verif.Georef.empty_box`, `Verif.Georef.forward_sameplace`, `Verif.Georef.geographic_forward_reverse`, `Verif.Georef.geographic_round_trip_iff`, `Verif.Georef.global_image_lost`, `Verif.Georef.image_round_trip`, `Verif.Georef.lonlatBoxes_cylindrical`, `Verif.Georef.lonlatToPixelBox_geographic`, `Verif.Georef.lonlatToPixelBox_unwrapped`, `Verif.Georef.make_exists`, `Verif.Georef.pixelToLonlatBox_boundary`, `Verif.Georef.pixelToLonlatBox_cylindrical`, `Verif.Georef.pixelToLonlatBox_geographic`, `Verif.Georef.pixelToPointBox_covers`, `Verif.Georef.pixel_point_round_trip`, `Verif.Georef.pixel_position`, `Verif.Georef.pointToLonlatBox_cylindrical`, `Verif.Georef.pointToPixelBox_covers`, `Verif.Georef.point_boxes_cover`, `Verif.Georef.pole_missed`, `Verif.Georef.projected_round_trip`, `Verif.Georef.reproject_wrong`, `Verif.Georef.resample_position`, `Verif.Georef.resample_rotated`, `Verif.Georef.sampleFloat_spec`, `Verif.Georef.sampleInt_intBox`, `Verif.Georef.sampleInt_misses`, `Verif.Georef.samples_spec`, `Verif.Georef.setTransform_accepts`, `Verif.Georef.setTransform_failed_state`, `Verif.Georef.setTransform_mid`, `Verif.Georef.setWkt_wrong_mid`, `Verif.Georef.skip_boxes_cover`, `Verif.Georef.skip_round_trip`, `Verif.Georef.skip_wrong`, `Verif.Georef.wrap_same`, `Verif.Georef.wrap_spec`, `Verif.Georef.wrap_within_iff`, `Verif.Mask.alpha_lost`, `Verif.Mask.apply_create`, `Verif.Mask.create_apply`, `Verif.Mask.create_valid`, `Verif.Mask.mask_expr`, `Verif.Mask.mean_wrong`, `Verif.Mask.quot_by_zero`, `Verif.Opt.armijo_descends`, `Verif.Opt.armijo_gives_up`, `Verif.Opt.armijo_smooth`, `Verif.Opt.armijo_spec`, `Verif.Opt.cg_armijo`, `Verif.Opt.cg_descends`, `Verif.Opt.cg_stationary`, `Verif.Opt.cg_steepest`, `Verif.Opt.cg_uphill`, `Verif.Opt.cg_way`, `Verif.Opt.charalambous_never`, `Verif.Opt.charalambous_wolfe`, `Verif.Opt.constant_smooth`, `Verif.Opt.lm_abs`, `Verif.Opt.lm_descends`, `Verif.Opt.lm_iterations`, `Verif.Opt.lm_linear`, `Verif.Opt.lm_linear_better`, `Verif.Opt.lm_linear_loop`, `Verif.Opt.lm_rel`, `Verif.Opt.lm_stationary`, `Verif.Opt.lm_step_descends`, `Verif.Opt.lm_trace`, `Verif.Opt.newton_affine`, `Verif.Opt.newton_converged`, `Verif.Opt.newton_fallback`, `Verif.Opt.newton_worse`, `Verif.Opt.nm_best`, `Verif.Opt.nm_default`, `Verif.Opt.nm_descends`, `Verif.Opt.nm_not_best`, `Verif.Opt.nm_points`, `Verif.Opt.nm_simplex`, `Verif.Opt.nm_status`, `Verif.Opt.nm_status_late`, `Verif.Opt.nm_total`, `Verif.Opt.numJac_quadratic`, `Verif.Opt.run_spec`, `Verif.Opt.steepest_descends`, `Verif.Opt.steepest_gradient`, `Verif.Opt.steepest_smooth`, `Verif.Opt.step_unique`, `Verif.Opt.step_zero`, `Verif.Opt.swarm_leaves_box`, `Verif.Opt.swarm_not_best`, `Verif.Opt.swarm_speed`, `Verif.Opt.swarm_starts`, `Verif.Opt.swarm_worse`, `Verif.Opt.update_value`, `Verif.Ransac.inlier_indices_spec`, `Verif.Ransac.ransac_best`, `Verif.Ransac.ransac_exact`, `Verif.Ransac.ransac_fails`, `Verif.Ransac.ransac_fewer_inliers`, `Verif.Ransac.ransac_mean`, `Verif.Ransac.ransac_result`, `Verif.Ransac.ransac_stays_reduced`, `Verif.Ransac.ransac_ties`, `Verif.Ransac.sample_ends`, `Verif.Ransac.sample_stuck`
