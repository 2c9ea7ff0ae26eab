{
 "claims": [
  {
   "property": "C01",
   "status": "proved",
   "theorems": [
    "Verif.BinHeap.c01_heap_is_priority_queue",
    "Verif.BinHeap.c01_front_least"
   ],
   "note": "Every history of legal operations refines a multiset priority queue; no legal operation is fatal or undefined."
  },
  {
   "property": "C02",
   "status": "proved",
   "theorems": [
    "Verif.BinHeap.c02_index_exact",
    "Verif.BinHeap.c02_popped_index",
    "Verif.BinHeap.c02_update_bad_index",
    "Verif.BinHeap.c02_update_cast_ub"
   ],
   "note": "Recorded indices are exact in every reachable state. The range check of update casts to 32 bits: c02_update_cast_ub shows an index of 2^32 gets past it."
  },
  {
   "property": "C03",
   "status": "proved",
   "theorems": [
    "Verif.Hash.c03_find_exact",
    "Verif.Hash.c03_remove_exact",
    "Verif.Hash.c03_calls_return",
    "Verif.Hash.c03_fill",
    "Verif.Hash.c03_zero_buckets_ub",
    "Verif.Hash.c03_needs_hash_ok"
   ],
   "note": "Pointer-level model; needs equal keys to hash equally and a non-zero number of buckets (both shown necessary)."
  },
  {
   "property": "C04",
   "status": "proved",
   "theorems": [
    "Verif.Hash.c04_iteration"
   ],
   "note": ""
  },
  {
   "property": "C05",
   "status": "partial",
   "theorems": [
    "Verif.Hash.c05_rm_partial",
    "Verif.Hash.c05_rm_keeps_element",
    "Verif.Hash.c05_rm_witness"
   ],
   "note": "False in the code: rm does not unlink an element that is not first in its bucket. Proved: the general failure, a concrete reachable failure, and correctness when the bucket holds only elements with that key."
  },
  {
   "property": "C06",
   "status": "proved",
   "theorems": [
    "Verif.Hash.c06_find_exact",
    "Verif.Hash.c03_calls_return",
    "Verif.Hash.c03_fill"
   ],
   "note": "Same code as the closed list; histories without removal are the special case the hash table can produce."
  },
  {
   "property": "C07",
   "status": "partial",
   "theorems": [
    "Verif.Intpq.c07_pop_least",
    "Verif.Intpq.c07_calls_return",
    "Verif.Intpq.c07_fill",
    "Verif.Intpq.c07_mem_partial",
    "Verif.Intpq.c07_clear_stale",
    "Verif.Intpq.c07_max_prio_ub"
   ],
   "note": "Pop order, contents and absence of errors proved for all histories; mem is exact only without clear: clear leaves the entries marked as members (c07_clear_stale)."
  },
  {
   "property": "C08",
   "status": "proved",
   "theorems": [
    "Verif.Djset.c08_find_iff_connected",
    "Verif.Djset.c08_calls_return",
    "Verif.Djset.c08_find_pure"
   ],
   "note": "join/find histories over any number of objects; ranks are unbounded naturals"
  },
  {
   "property": "C09",
   "status": "proved",
   "theorems": [
    "Verif.BucketOpen.c09_pop_best",
    "Verif.BucketOpen.c09_calls_return",
    "Verif.BucketOpen.c09_empty",
    "Verif.BucketOpen.c09_pop_empty_ub",
    "Verif.BucketOpen.c09_negative_ub"
   ],
   "note": "priorities must be non-negative (UB otherwise, proved)"
  },
  {
   "property": "C10",
   "status": "partial",
   "theorems": [
    "Verif.BucketOpen.c10_mem_partial",
    "Verif.BucketOpen.c10_clear_stale",
    "Verif.BucketOpen.c10_post_update_after_clear",
    "Verif.BinHeap.c10_heap_mem_partial",
    "Verif.BinHeap.c10_heap_clear_stale",
    "Verif.BinHeap.c10_heap_post_update_after_clear"
   ],
   "note": "false: clear leaves the node indices; membership is exact for histories without clear"
  },
  {
   "property": "C100",
   "status": "partial",
   "theorems": [
    "Verif.Dta.c100_solution",
    "Verif.Dta.c100_dangling",
    "Verif.Dta.c100_uninit",
    "Verif.Dta.c100_dead_end",
    "Verif.Dta.c100_safe_partial",
    "Verif.Dta.c100_expansions",
    "Verif.Dta.c100_values",
    "Verif.Dta.c100_walks_away",
    "Verif.Dta.c100_detour",
    "Verif.Dta.c100_overestimate",
    "Verif.Dta.c100_goal_assert",
    "Verif.Dta.c100_counts"
   ],
   "note": "soundness and the limit hold in general; safety only for one goal and bounds within a grain (c100_safe_partial). Violated: read of destroyed and of unset memory, dead ends, goals that were found are left, values above true costs, a failing assertion with two goals"
  },
  {
   "property": "C101",
   "status": "partial",
   "theorems": [
    "Verif.Limits.c101_number",
    "Verif.Limits.c101_negative",
    "Verif.Limits.c101_parse",
    "Verif.Limits.c101_reached",
    "Verif.Limits.c101_is_limit",
    "Verif.Limits.c101_no_number",
    "Verif.Limits.c101_swallowed",
    "Verif.Limits.c101_memory",
    "Verif.Limits.c101_memory_ub",
    "Verif.Limits.c101_timer_partial",
    "Verif.Limits.c101_timer_alone",
    "Verif.Limits.c101_timer_null",
    "Verif.Limits.c101_flag_stays",
    "Verif.Limits.c101_stopped",
    "Verif.Limits.c101_algorithm",
    "Verif.Limits.c101_plat_no_name"
   ],
   "note": "Violated: values that are no numbers are accepted and mean no limit, negative ones mean huge limits; two timed searches; timeup is never reset. Proved otherwise: well-formed command lines, the timer for searches that finish only what they hold, at all interleavings."
  },
  {
   "property": "C102",
   "status": "partial",
   "theorems": [
    "Verif.Limits.c102_lookahead",
    "Verif.Limits.c102_missing",
    "Verif.Limits.c102_cut",
    "Verif.Limits.c102_not_a_number",
    "Verif.Limits.c102_dynamic",
    "Verif.Limits.c102_budget",
    "Verif.Limits.c102_table",
    "Verif.Limits.c102_cached",
    "Verif.Limits.c102_size",
    "Verif.Limits.c102_overruns",
    "Verif.Limits.c102_overruns_example",
    "Verif.Limits.c102_size_partial",
    "Verif.Limits.c102_empty",
    "Verif.Limits.c102_stale",
    "Verif.Limits.c102_rounding",
    "Verif.Limits.c102_deadline",
    "Verif.Limits.c102_not_monotone",
    "Verif.Limits.c102_missed"
   ],
   "note": "Violated: maxlss returns a size that takes at least the time available; truncation to 32 bits; cache problems. Proved otherwise: command line, budget, table, deadlines."
  },
  {
   "property": "C103",
   "status": "proved",
   "theorems": [
    "Verif.Search.c103_popped",
    "Verif.Search.c103_astar",
    "Verif.Search.c103_wastar",
    "Verif.Search.c103_greedy_dropdups",
    "Verif.Search.c103_greedy_violated"
   ],
   "note": "For A*, and weighted A* with any weight, with and without -dropdups. Greedy search: exact with -dropdups; without it the goal's g can be larger than the cost of the path (witness)."
  },
  {
   "property": "C104",
   "status": "proved",
   "theorems": [
    "Verif.Search.c104_astar",
    "Verif.Search.c104_printed",
    "Verif.Search.c104_length",
    "Verif.Search.c104_rows",
    "Verif.Search.c104_optimal",
    "Verif.Search.c104_dstar_not_least",
    "Verif.Search.c104_hstar_over"
   ],
   "note": "Exact arithmetic. Also shown: d* is the number of operators on the path and not the least number of operators to a goal; h* is not the true cost to go when the heuristic over-estimates."
  },
  {
   "property": "C105",
   "status": "partial",
   "theorems": [
    "Verif.Rrt.c105_safe",
    "Verif.Rrt.c105_solution",
    "Verif.Rrt.c105_tree",
    "Verif.Rrt.c105_step",
    "Verif.Rrt.c105_complete",
    "Verif.Rrt.c105_endless",
    "Verif.Rrt.c105_start_goal",
    "Verif.Rrt.c105_seed",
    "Verif.Rrt.c105_reset"
   ],
   "note": "Violated: limits are never looked at, the start state is not tested, -s always gives seed 0, reset leaves destroyed nodes in the tree. Proved otherwise: paths, choice of node and operator, no undefined behaviour in a first search, suitable samples find a goal."
  },
  {
   "property": "C106",
   "status": "partial",
   "theorems": [
    "Verif.DtaDump.c106_solution",
    "Verif.DtaDump.c106_samples",
    "Verif.DtaDump.c106_lower_bound_partial",
    "Verif.DtaDump.c106_same",
    "Verif.DtaDump.c106_near_goal",
    "Verif.DtaDump.c106_zero_cost",
    "Verif.DtaDump.c106_sampling_counts",
    "Verif.DtaDump.c106_endless"
   ],
   "note": "the code violates the claim: c106_near_goal, c106_zero_cost (infinite values although a solution exists), c106_sampling_counts (samples use up the limit), c106_endless; the lower bound holds for solutions with at least as many operators as the depth (c106_lower_bound_partial)"
  },
  {
   "property": "C107",
   "status": "partial",
   "theorems": [
    "Verif.Rounded.c107_solution",
    "Verif.Rounded.c107_complete",
    "Verif.Rounded.c107_terminates",
    "Verif.Rounded.c107_bound",
    "Verif.Rounded.c107_uniform_rounded",
    "Verif.Rounded.c107_uniform_exact",
    "Verif.Rounded.c107_drift"
   ],
   "note": "Solutions, completeness, termination, bound by fresh f values, and near-optimality without heuristic (2^-53 per step) are proved for IEEE rounding. Violated: the incremental update of f drifts, A* with an exact consistent heuristic on doubles returns a path that is not cheapest (c107_drift)."
  },
  {
   "property": "C108",
   "status": "partial",
   "theorems": [
    "Verif.Scenario.c108_run",
    "Verif.Scenario.c108_malformed",
    "Verif.Scenario.c108_pathcost",
    "Verif.Scenario.c108_check",
    "Verif.Scenario.c108_optimal",
    "Verif.Scenario.c108_no_path",
    "Verif.Scenario.c108_outside",
    "Verif.Scenario.c108_rdb_partial",
    "Verif.Scenario.c108_rdb_version",
    "Verif.Scenario.c108_rdb_right",
    "Verif.Scenario.c108_rdb_shifted",
    "Verif.Scenario.c108_rdb_cut",
    "Verif.Scenario.c108_rdb_percent",
    "Verif.Scenario.c108_header",
    "Verif.Scenario.c108_root",
    "Verif.Scenario.c108_rdb_header",
    "Verif.Scenario.c108_negative"
   ],
   "note": "Rows, order, selection, totals and the check against the optimal cost are proved for every file. Violated: an entry without a path aborts the run (c108_no_path), malformed entries end it silently (c108_malformed), coordinates are not checked (c108_outside); scenario2rdb shifts all fields for 'version 1.0', writes cut-off records, and takes fields for formats (c108_rdb_version, c108_rdb_cut, c108_rdb_percent)."
  },
  {
   "property": "C109",
   "status": "partial",
   "theorems": [
    "Verif.VisFile.c109_map",
    "Verif.VisFile.c109_graph",
    "Verif.VisFile.c109_inst",
    "Verif.VisFile.c109_map_only",
    "Verif.VisFile.c109_exact",
    "Verif.VisFile.c109_stable",
    "Verif.VisFile.c109_wf",
    "Verif.VisFile.c109_short",
    "Verif.VisFile.c109_collapse",
    "Verif.VisFile.c109_empty_polygon",
    "Verif.VisFile.c109_uninit",
    "Verif.VisFile.c109_uninit_text",
    "Verif.VisFile.c109_bound_spaces",
    "Verif.VisFile.c109_owner_lost",
    "Verif.VisFile.c109_moved",
    "Verif.VisFile.c109_inadmissible"
   ],
   "note": "Round trip, exactness, stability and rejection are proved for every faithful number format. Violated by the code, with witnesses: admissibility after reading (c109_inadmissible), missing count of vertices (c109_uninit), polygons below the precision (c109_collapse), white space after bound: (c109_bound_spaces), loss of the owners of vertices (c109_owner_lost), rounding of locations (c109_moved)."
  },
  {
   "property": "C11",
   "status": "proved",
   "theorems": [
    "Verif.Pool.c11_get_not_live",
    "Verif.Pool.c11_live_distinct",
    "Verif.Pool.c11_calls_return",
    "Verif.Pool.c11_zero_blksz_ub",
    "Verif.Pool.c11_double_put"
   ],
   "note": "block size must be positive (UB otherwise, proved); put only of live objects (needed, proved)"
  },
  {
   "property": "C110",
   "status": "partial",
   "theorems": [
    "Verif.DfTools.c110_add",
    "Verif.DfTools.c110_keys",
    "Verif.DfTools.c110_twice",
    "Verif.DfTools.c110_lost",
    "Verif.DfTools.c110_blank",
    "Verif.DfTools.c110_nokey",
    "Verif.DfTools.c110_cut_value",
    "Verif.DfTools.c110_quote",
    "Verif.DfTools.c110_newline",
    "Verif.DfTools.c110_nul",
    "Verif.DfTools.c110_complete",
    "Verif.DfTools.c110_blank_line",
    "Verif.DfTools.c110_other",
    "Verif.DfTools.c110_cut",
    "Verif.DfTools.c110_add_complete"
   ],
   "note": "Holds for records and attributes the writers support if the file has a pair, and for files without blank lines. Violated: without a pair the attributes are lost silently, blank lines and pairs without key are undefined behaviour, values of one length are cut, quotes and line ends in values damage the file, a null character joins two lines."
  },
  {
   "property": "C111",
   "status": "partial",
   "theorems": [
    "Verif.TrafficFile.c111_read",
    "Verif.TrafficFile.c111_short",
    "Verif.TrafficFile.c111_roundtrip",
    "Verif.TrafficFile.c111_cut",
    "Verif.TrafficFile.c111_wrap",
    "Verif.TrafficFile.c111_size",
    "Verif.TrafficFile.c111_empty",
    "Verif.TrafficFile.c111_random",
    "Verif.TrafficFile.c111_one_cell",
    "Verif.TrafficFile.c111_one_wide",
    "Verif.TrafficFile.c111_args"
   ],
   "note": "Reading, round trip and random instances are proved. Violated: incomplete or foreign lines silently end the obstacles, start and goal outside of the grid are accepted, the number of cells wraps, the generator never ends on one cell, divides by zero for one column and reads a null pointer with three arguments."
  },
  {
   "property": "C112",
   "status": "partial",
   "theorems": [
    "Verif.RandPoly.c112_simple",
    "Verif.RandPoly.c112_same_x",
    "Verif.RandPoly.c112_spike",
    "Verif.RandPoly.c112_map",
    "Verif.RandPoly.c112_radius",
    "Verif.RandPoly.c112_nverts",
    "Verif.RandPoly.c112_outfile"
   ],
   "note": "Proved with exact arithmetic for points in general position, and for all maps that get made. Violated: equal x coordinates end the program, a point on the base line can give a spike, options are not checked, the output file stays empty."
  },
  {
   "property": "C113",
   "status": "partial",
   "theorems": [
    "Verif.Segments.c113_value",
    "Verif.Segments.c113_bound",
    "Verif.Segments.c113_step",
    "Verif.Segments.c113_exact",
    "Verif.Segments.c113_le_h",
    "Verif.Segments.c113_wrap"
   ],
   "note": "Proved for coordinates at most 2^31 away from the goal (value, zero on goals for all states). Beyond that the bound fails: c113_wrap."
  },
  {
   "property": "C114",
   "status": "partial",
   "theorems": [
    "Verif.SegmentsFile.c114_comment",
    "Verif.SegmentsFile.c114_read",
    "Verif.SegmentsFile.c114_inside",
    "Verif.SegmentsFile.c114_apart",
    "Verif.SegmentsFile.c114_file",
    "Verif.SegmentsFile.c114_endless",
    "Verif.SegmentsFile.c114_narrow",
    "Verif.SegmentsFile.c114_outside",
    "Verif.SegmentsFile.c114_left",
    "Verif.SegmentsFile.c114_diagonal"
   ],
   "note": "Proved: round trip, comments, poses and radii in range, starts and goals apart from each other and from the generator's bounds. Violated: the bounds of generator and reader (c114_outside, c114_left, c114_diagonal), comment at the end of the file (c114_endless), narrow areas (c114_narrow)."
  },
  {
   "property": "C115",
   "status": "partial",
   "theorems": [
    "Verif.Ppm.c115_bare",
    "Verif.Ppm.c115_image",
    "Verif.Ppm.c115_lost",
    "Verif.Ppm.c115_dim",
    "Verif.Ppm.c115_blank",
    "Verif.Ppm.c115_short",
    "Verif.Ppm.c115_load"
   ],
   "note": "The code violates the claim: the line with the full brightness, which the format requires, is not read, so that all numbers are one place late and obstacles grow to the right (c115_image, c115_lost); 255 is always taken for the full brightness (c115_dim); empty lines are undefined behaviour. Without that line the conversion is right (c115_bare)."
  },
  {
   "property": "C116",
   "status": "partial",
   "theorems": [
    "Verif.SeedInst.c116_prints",
    "Verif.SeedInst.c116_ends",
    "Verif.SeedInst.c116_endless",
    "Verif.SeedInst.c116_read",
    "Verif.SeedInst.c116_solvable_partial",
    "Verif.SeedInst.c116_rounded"
   ],
   "note": "The code violates the claim: the probability is printed with six digits, and the solver may draw another map, on which the start is blocked (c116_rounded). Proved: which seed is printed, that the search does not err, and that the instance can be solved if the rounding does not matter. With a probability above every random number the generator never ends."
  },
  {
   "property": "C117",
   "status": "partial",
   "theorems": [
    "Verif.Lms.c117_filled",
    "Verif.Lms.c117_chance",
    "Verif.Lms.c117_biased",
    "Verif.Lms.c117_record",
    "Verif.Lms.c117_short",
    "Verif.Lms.c117_columns",
    "Verif.Lms.c117_fit_partial",
    "Verif.Lms.c117_unit"
   ],
   "note": "Violated in part: the sample is not uniform (c117_chance gives the exact chances, c117_biased), and zeros are printed when the solver has no answer (c117_unit). Proved: rows are filled, the matrix is right, an answer is a best fit provided the solver is right (Right)."
  },
  {
   "property": "C118",
   "status": "partial",
   "theorems": [
    "Verif.BestWt.c118_file",
    "Verif.BestWt.c118_taken",
    "Verif.BestWt.c118_missing",
    "Verif.BestWt.c118_best",
    "Verif.BestWt.c118_total",
    "Verif.BestWt.c118_bare",
    "Verif.BestWt.c118_novalue",
    "Verif.BestWt.c118_empty"
   ],
   "note": "Proved for files whose lines can be read and at least one file; without a file, or with a pair that has no key or value, the code is out of bounds (c118_empty, c118_bare, c118_novalue)."
  },
  {
   "property": "C119",
   "status": "partial",
   "theorems": [
    "Verif.Eps.c119_runs",
    "Verif.Eps.c119_pixels",
    "Verif.Eps.c119_clamp",
    "Verif.Eps.c119_outside",
    "Verif.Eps.c119_letter",
    "Verif.Eps.c119_margin",
    "Verif.Eps.c119_header",
    "Verif.Eps.c119_line",
    "Verif.Eps.c119_poly",
    "Verif.Eps.c119_novertex",
    "Verif.Eps.c119_point",
    "Verif.Eps.c119_string",
    "Verif.Eps.c119_smiley",
    "Verif.Eps.c119_text",
    "Verif.Eps.c119_arc"
   ],
   "note": "Violated in part: c119_outside, c119_margin, c119_header, c119_poly, c119_novertex, c119_smiley. Proved for pixels inside of the picture, margins of less than half of the page and texts whose parentheses nest."
  },
  {
   "property": "C12",
   "status": "proved",
   "theorems": [
    "Verif.KdTree.c12_nearest"
   ],
   "note": "exact arithmetic over any ordered field instead of double"
  },
  {
   "property": "C120",
   "status": "partial",
   "theorems": [
    "Verif.Profile.c120_row",
    "Verif.Profile.c120_short",
    "Verif.Profile.c120_other",
    "Verif.Profile.c120_made",
    "Verif.Profile.c120_none",
    "Verif.Profile.c120_read",
    "Verif.Profile.c120_cut",
    "Verif.Profile.c120_cut2",
    "Verif.Profile.c120_rounded"
   ],
   "note": "Violated in part: ranges are rounded to six digits when saved, with another decision (c120_rounded); undefined on short rows (c120_short) and for files that are cut (c120_cut2). Proved: bins and counts survive, all numbers up to rounding (c120_read)."
  },
  {
   "property": "C121",
   "status": "partial",
   "theorems": [
    "Verif.Status.c121_peak",
    "Verif.Status.c121_none",
    "Verif.Status.c121_name",
    "Verif.Status.c121_open"
   ],
   "note": "Violated in part: c121_name, c121_open. Proved if no line before the field contains its name and the file can be opened."
  },
  {
   "property": "C122",
   "status": "partial",
   "theorems": [
    "Verif.Status.c122_message",
    "Verif.Status.c122_reason",
    "Verif.Status.c122_lost",
    "Verif.Status.c122_prefix"
   ],
   "note": "Violated for long messages: c122_lost, and the equivalences c122_message and c122_reason give the exact bounds."
  },
  {
   "property": "C13",
   "status": "proved",
   "theorems": [
    "Verif.KdTree.c13_size",
    "Verif.KdTree.c13_iterate",
    "Verif.KdTree.c13_depth"
   ],
   "note": ""
  },
  {
   "property": "C14",
   "status": "proved",
   "theorems": [
    "Verif.Stn.c14_rejected_unchanged",
    "Verif.Stn.c14_undo_restores",
    "Verif.Stn.c14_state_of_active",
    "Verif.Stn.c14_undo_empty_ub",
    "Verif.Stn.c14_calls_return"
   ],
   "note": "Full state equality (arcs, bounds, undo stack) for every reachable network."
  },
  {
   "property": "C15",
   "status": "proved",
   "theorems": [
    "Verif.Stn.c15_lower_is_schedule",
    "Verif.Stn.c15_upper_is_schedule"
   ],
   "note": "Holds without any saturation hypothesis: saturating bounds are detected by the opposite pass."
  },
  {
   "property": "C16",
   "status": "proved",
   "theorems": [
    "Verif.Stn.c16_rejected_inconsistent",
    "Verif.Stn.c16_accept_iff"
   ],
   "note": ""
  },
  {
   "property": "C17",
   "status": "proved",
   "theorems": [
    "Verif.Stn.c17_bounds",
    "Verif.Stn.c17_bounds_ordered",
    "Verif.Stn.c17_tight"
   ],
   "note": ""
  },
  {
   "property": "C18",
   "status": "proved",
   "theorems": [
    "Verif.Encode.c18_roundtrip",
    "Verif.Encode.c18_size"
   ],
   "note": "All byte strings (sizes below 2^32)."
  },
  {
   "property": "C19",
   "status": "proved",
   "theorems": [
    "Verif.Encode.c19_roundtrip",
    "Verif.Encode.c19_rfc4648"
   ],
   "note": ""
  },
  {
   "property": "C20",
   "status": "proved",
   "theorems": [
    "Verif.Encode.c20_decodable"
   ],
   "note": "Against a standard decoder written as specification."
  },
  {
   "property": "C21",
   "status": "partial",
   "theorems": [
    "Verif.Encode.c21_controls_partial",
    "Verif.Encode.c21_witness"
   ],
   "note": "Round trip for values 0..127; false from 128 on because char is signed (and truncated at 8 bits)."
  },
  {
   "property": "C22",
   "status": "proved",
   "theorems": [
    "Verif.Rank.c22_range",
    "Verif.Rank.c22_order",
    "Verif.Rank.c22_injective",
    "Verif.Rank.c22_onto",
    "Verif.Rank.c22_out_of_range_ub"
   ],
   "note": "sz below 2^29 and sz!/(sz-n)! at most 2^64, as the types need; the destructor's delete of an array is not modelled"
  },
  {
   "property": "C23",
   "status": "partial",
   "theorems": [
    "Verif.MathFns.c23_ilog2",
    "Verif.MathFns.c23_ilog2_off_by_one",
    "Verif.MathFns.c23_ipow",
    "Verif.MathFns.c23_fallfact_partial",
    "Verif.MathFns.c23_fallfact_zero"
   ],
   "note": "ilog2 is bit length (one more than the floor of the logarithm); fallfact(x,0)=x, so its claim holds for n>=1 only"
  },
  {
   "property": "C24",
   "status": "partial",
   "theorems": [
    "Verif.SafeOps.c24_add",
    "Verif.SafeOps.c24_sub_partial",
    "Verif.SafeOps.c24_sub_ub",
    "Verif.SafeOps.c24_mul_partial",
    "Verif.SafeOps.c24_mul_ub",
    "Verif.SafeOps.c24_div",
    "Verif.SafeOps.c24_addU",
    "Verif.SafeOps.c24_subU_partial",
    "Verif.SafeOps.c24_subU_wrong",
    "Verif.SafeOps.c24_mulU",
    "Verif.SafeOps.c24_can_mul",
    "Verif.SafeOps.c24_divU"
   ],
   "note": "add, div and the unsigned add/mul/div are exact; the code's checks for sub and signed mul are wrong on stated inputs, for which the negation is proved"
  },
  {
   "property": "C25",
   "status": "proved",
   "theorems": [
    "Verif.Rand.c25_permutation",
    "Verif.Rand.c25_nonzero",
    "Verif.Rand.c25_seed",
    "Verif.Rand.c25_integer_range",
    "Verif.Rand.c25_integer_onto",
    "Verif.Rand.c25_integer_ub"
   ],
   "note": "seed equal to the initial constant gives the zero state"
  },
  {
   "property": "C26",
   "status": "partial",
   "theorems": [
    "Verif.Datafile.c26_roundtrip_partial",
    "Verif.Datafile.c26_columns",
    "Verif.Datafile.c26_tokens",
    "Verif.Datafile.c26_boundary",
    "Verif.Datafile.c26_boundary_fatal",
    "Verif.Datafile.c26_header_fatal",
    "Verif.Datafile.c26_long_key",
    "Verif.Datafile.c26_blank_line",
    "Verif.Datafile.c26_newline"
   ],
   "note": "Any list of pairs, column headers, rows and comment lines is read back exactly, except that a pair whose text is exactly 256 bytes loses its last byte (proved: c26_boundary, c26_boundary_fatal), a header line of exactly 256 bytes is cut (c26_header_fatal), keys over 245 bytes stop the program. printf formatting of doubles is an input of the model."
  },
  {
   "property": "C27",
   "status": "partial",
   "theorems": [
    "Verif.Path.c27_pathcat",
    "Verif.Path.c27_join",
    "Verif.Path.c27_join_exact",
    "Verif.Path.c27_split",
    "Verif.Path.c27_ensuredir_partial",
    "Verif.Path.c27_ensuredir_file",
    "Verif.Path.c27_pathcat_empty",
    "Verif.Path.c27_pathcatn"
   ],
   "note": "Joining and splitting proved for all paths (non-empty directory); pathcat with an empty directory and every pathcatn call are undefined (proved). ensuredir proved to create exactly the missing directories unless a file is in the way (negation proved)."
  },
  {
   "property": "C28",
   "status": "partial",
   "theorems": [
    "Verif.Rdb.c28_ordered_map_partial",
    "Verif.Rdb.c28_keys",
    "Verif.Rdb.c28_lookup_inserts",
    "Verif.Rdb.c28_args",
    "Verif.Rdb.c28_args_words",
    "Verif.Rdb.c28_args_ub"
   ],
   "note": "Every history that looks up only present keys refines an ordered map; lookup of a missing key changes the map (negation proved)."
  },
  {
   "property": "C29",
   "status": "proved",
   "theorems": [
    "Verif.Search.c29_solution",
    "Verif.Search.c29_returns"
   ],
   "note": "packed states identified with states; costs exact"
  },
  {
   "property": "C30",
   "status": "proved",
   "theorems": [
    "Verif.Search.c30_optimal",
    "Verif.Search.c30_restrict"
   ],
   "note": "also for heuristics uniformly shifted by a constant, and relative to any subset of the operators along which the heuristic does not over-estimate"
  },
  {
   "property": "C31",
   "status": "proved",
   "theorems": [
    "Verif.Search.c31_failure",
    "Verif.Search.c31_terminates",
    "Verif.Search.c31_progress"
   ],
   "note": ""
  },
  {
   "property": "C32",
   "status": "proved",
   "theorems": [
    "Verif.Search.c32_limits",
    "Verif.Search.c32_cut"
   ],
   "note": "proved for the common engine of A*, weighted A* and greedy search"
  },
  {
   "property": "C33",
   "status": "proved",
   "theorems": [
    "Verif.Ida.c33_solution",
    "Verif.Ida.c33_optimal",
    "Verif.Ida.c33_complete"
   ],
   "note": ""
  },
  {
   "property": "C34",
   "status": "partial",
   "theorems": [
    "Verif.Ida.c34_never_reports",
    "Verif.Ida.c34_witness",
    "Verif.Ida.c34_limited_partial"
   ],
   "note": "the code violates the property: without a limit it never returns on an unsolvable problem (negation and witness proved); with an expansion limit it always returns"
  },
  {
   "property": "C35",
   "status": "proved",
   "theorems": [
    "Verif.Search.c35_bounded",
    "Verif.Search.c35_solution",
    "Verif.Search.c35_failure",
    "Verif.Search.c35_terminates",
    "Verif.Search.c35_dropdups_unbounded"
   ],
   "note": "weights and costs in an ordered field"
  },
  {
   "property": "C36",
   "status": "proved",
   "theorems": [
    "Verif.Search.c36_solution",
    "Verif.Search.c36_failure",
    "Verif.Search.c36_terminates",
    "Verif.Search.c36_progress"
   ],
   "note": ""
  },
  {
   "property": "C37",
   "status": "proved",
   "theorems": [
    "Verif.Search.c37_solpath"
   ],
   "note": ""
  },
  {
   "property": "C38",
   "status": "partial",
   "theorems": [
    "Verif.Search.Arastar.c38_decreasing",
    "Verif.Search.Arastar.c38_bounded",
    "Verif.Search.Arastar.c38_bound_admissible",
    "Verif.Search.Arastar.c38_solution",
    "Verif.Search.Arastar.c38_optimal",
    "Verif.Search.Arastar.c38_terminates",
    "Verif.Search.Arastar.c38_progress",
    "Verif.Search.Arastar.c38_bound_zero",
    "Verif.Search.Arastar.c38_converged_cut",
    "Verif.Search.Arastar.c38_inconsistent"
   ],
   "note": "Proved for every tie-breaking, every limit and every loss of closed-list entries caused by the link field shared by the closed list and the inconsistent list; exact arithmetic; growth of the two hash tables is not modelled. Shown false: the printed bound can be 0, a search cut off at weight 1 still prints converged, and with an inconsistent admissible heuristic the final solution need not be optimal."
  },
  {
   "property": "C39",
   "status": "proved",
   "theorems": [
    "Verif.Tiles.c39_ops",
    "Verif.Tiles.c39_edge",
    "Verif.Tiles.c39_reverse",
    "Verif.Tiles.c39_ident"
   ],
   "note": "All board sizes. The stale array entry at the blank is not restored by the edge destructor, but operator== ignores it."
  },
  {
   "property": "C40",
   "status": "proved",
   "theorems": [
    "Verif.Tiles.c40_init",
    "Verif.Tiles.c40_manhattan",
    "Verif.Tiles.c40_inplace"
   ],
   "note": "Reading a table entry that initincr/initmd never wrote is undefined behaviour in the model, and is shown not to happen."
  },
  {
   "property": "C41",
   "status": "proved",
   "theorems": [
    "Verif.Tiles.c41_consistent",
    "Verif.Tiles.c41_goal",
    "Verif.Tiles.c41_admissible",
    "Verif.Tiles.c41_astar"
   ],
   "note": "Includes the end-to-end corollary that A* returns a shortest solution."
  },
  {
   "property": "C42",
   "status": "proved",
   "theorems": [
    "Verif.Tiles.c42_roundtrip",
    "Verif.Tiles.c42_eq"
   ],
   "note": "PackedTiles64, used for 9 and 16 tiles; for other sizes the C++ pack is fatal('unimplemented')."
  },
  {
   "property": "C43",
   "status": "proved",
   "theorems": [
    "Verif.Pancake.c43_flip",
    "Verif.Pancake.c43_gaps",
    "Verif.Pancake.c43_reverse",
    "Verif.Pancake.c43_eq"
   ],
   "note": "Every Ncakes."
  },
  {
   "property": "C44",
   "status": "proved",
   "theorems": [
    "Verif.Pancake.c44_goal",
    "Verif.Pancake.c44_perm",
    "Verif.Pancake.c44_consistent",
    "Verif.Pancake.c44_admissible",
    "Verif.Pancake.c44_astar",
    "Verif.Pancake.c44_unvalidated",
    "Verif.Pancake.c44_shortest",
    "Verif.Pancake.c43_ops"
   ],
   "note": "For stacks that are permutations; the input is not validated (c44_unvalidated)."
  },
  {
   "property": "C45",
   "status": "proved",
   "theorems": [
    "Verif.GridNav.c45_setsize",
    "Verif.GridNav.c45_map",
    "Verif.GridNav.c45_defined",
    "Verif.GridNav.c45_ops",
    "Verif.GridNav.c45_app",
    "Verif.GridNav.c45_corner",
    "Verif.GridNav.c45_walk",
    "Verif.GridNav.c45_reverse",
    "Verif.GridNav.c45_life_revcost_wrong"
   ],
   "note": "Start cell assumed inside the border (the constructor does not check it); array indices assumed to fit in an int. The reverse cost of an edge is wrong on life-cost maps (c45_life_revcost_wrong)."
  },
  {
   "property": "C46",
   "status": "proved",
   "theorems": [
    "Verif.GridNav.c46_cost_eq",
    "Verif.GridNav.c46_consistent",
    "Verif.GridNav.c46_goal",
    "Verif.GridNav.c46_admissible",
    "Verif.GridNav.c46_astar"
   ],
   "note": "Costs are exact reals units+sqrts*sqrt 2; floating point rounding of the stored double is not modelled. On four-way life maps with the goal in the last row the heuristic is -1 at the goal."
  },
  {
   "property": "C47",
   "status": "partial",
   "theorems": [
    "Verif.Vacuum.c47_load",
    "Verif.Vacuum.c47_walk",
    "Verif.Vacuum.c47_value",
    "Verif.Vacuum.c47_goal_ub",
    "Verif.Vacuum.c47_admissible",
    "Verif.Vacuum.c47_astar",
    "Verif.Vacuum.c47_charge",
    "Verif.Vacuum.c47_eq"
   ],
   "note": "Admissibility is proved for every map without charging stations. The second half of the claim is false: h is undefined on every goal state (c47_goal_ub), and on a charging station expanding a state aborts (c47_charge)."
  },
  {
   "property": "C48",
   "status": "partial",
   "theorems": [
    "Verif.Vacuum.c48_inconsistent",
    "Verif.Vacuum.c48_move_partial",
    "Verif.Vacuum.c48_suck_partial"
   ],
   "note": "False as stated: c48_inconsistent is a counterexample read by the code's own constructor. Proved: moving leaves h unchanged, sucking lowers it by at least one."
  },
  {
   "property": "C49",
   "status": "partial",
   "theorems": [
    "Verif.Traffic.c49_position",
    "Verif.Traffic.c49_unique",
    "Verif.Traffic.c49_start",
    "Verif.Traffic.c49_speed",
    "Verif.Traffic.c49_straight",
    "Verif.Traffic.c49_ops",
    "Verif.Traffic.c49_all",
    "Verif.Traffic.c49_one_wide_ub",
    "Verif.Traffic.c49_one_high_ub",
    "Verif.Traffic.c49_ident_ub"
   ],
   "note": "Proved for grids with at least two rows and columns; the negation is proved for narrower grids (division by zero) and for the identity operator."
  },
  {
   "property": "C50",
   "status": "partial",
   "theorems": [
    "Verif.Traffic.c50_initial_partial",
    "Verif.Traffic.c50_safe_partial",
    "Verif.Traffic.c50_astar",
    "Verif.Traffic.c50_not_admissible"
   ],
   "note": "False in general (witness proved); proved from the initial state and for plans without collisions; A* from the initial state is still proved optimal."
  },
  {
   "property": "C51",
   "status": "partial",
   "theorems": [
    "Verif.DockRobot.c51_roundtrip",
    "Verif.DockRobot.c51_packed_eq",
    "Verif.DockRobot.c51_ops",
    "Verif.DockRobot.c51_undo",
    "Verif.DockRobot.c51_place",
    "Verif.DockRobot.c51_goal",
    "Verif.DockRobot.c51_unsorted_violated"
   ],
   "note": "Proved for all reachable states when the piles of the initial state are sorted by bottom box; the code does not sort the piles of the instance file, and then undoing fails (c51_unsorted_violated). Finite adjacency costs; box places without a goal are not compared."
  },
  {
   "property": "C52",
   "status": "proved",
   "theorems": [
    "Verif.Segments.c52_make",
    "Verif.Segments.c52_defined",
    "Verif.Segments.c52_count",
    "Verif.Segments.c52_ops",
    "Verif.Segments.c52_edge",
    "Verif.Segments.c52_undo",
    "Verif.Segments.c52_undo_exact",
    "Verif.Segments.c52_oper_eq",
    "Verif.Segments.c52_pack",
    "Verif.Segments.c52_value",
    "Verif.Segments.c52_admissible",
    "Verif.Segments.c52_undo_ok",
    "Verif.Segments.c52_astar",
    "Verif.Segments.c52_terminates",
    "Verif.Segments.c52_inconsistent",
    "Verif.Segments.c52_bounds_swapped",
    "Verif.Segments.c52_bounds_diagonal",
    "Verif.Segments.c52_unvalidated",
    "Verif.Segments.c52_nop_revcost"
   ],
   "note": "For every geometry. The reverse operator restores the poses exactly, the gripper stays at the segment. Admissibility and A* under the hypothesis that coordinates stay below 2^31 (Fenced). Findings: bounds swapped / diagonal, unvalidated rotations, revcost unset for Nop, heuristic inconsistent."
  },
  {
   "property": "C53",
   "status": "proved",
   "theorems": [
    "Verif.Profile.c53_bins",
    "Verif.Profile.c53_bin_unique",
    "Verif.Profile.c53_profile",
    "Verif.Profile.c53_ordered",
    "Verif.Profile.c53_empty",
    "Verif.Profile.c53_optimal",
    "Verif.Profile.c53_made",
    "Verif.Profile.c53_stop",
    "Verif.Profile.c53_stop_outside",
    "Verif.Profile.c53_negative_weight",
    "Verif.Profile.c53_single_time"
   ],
   "note": "double idealised as exact rationals; the negation is proved for negative time weights and for a single time bin"
  },
  {
   "property": "C54",
   "status": "partial",
   "theorems": [
    "Verif.Djset.c54_clear_partial",
    "Verif.Djset.c54_clear_witness"
   ],
   "note": "false in general (witness): clearing a tree root leaves the others attached; holds for objects nobody points to"
  },
  {
   "property": "C55",
   "status": "proved",
   "theorems": [
    "Verif.Pool.c55_blocks"
   ],
   "note": ""
  },
  {
   "property": "C56",
   "status": "partial",
   "theorems": [
    "Verif.Stn.c56_named_partial",
    "Verif.Stn.c56_after_is_before"
   ],
   "note": "After(i,j,a) builds the same constraint as Before(i,j,a); the others are right."
  },
  {
   "property": "C57",
   "status": "partial",
   "theorems": [
    "Verif.Tiles.c57_read_partial",
    "Verif.Tiles.c57_wrong_size_accepted",
    "Verif.Tiles.c57_position_ub"
   ],
   "note": "Well-formed files are read correctly; the rejection part is false (the dimension test uses && and positions are not checked), negations proved with witnesses."
  },
  {
   "property": "C58",
   "status": "partial",
   "theorems": [
    "Verif.Pdb.c58_range_partial",
    "Verif.Pdb.c58_injective_partial",
    "Verif.Pdb.c58_collision"
   ],
   "note": "True while the table has at most 2^32 entries; false for 9 pattern tiles of the 15-puzzle (c58_collision)."
  },
  {
   "property": "C59",
   "status": "proved",
   "theorems": [
    "Verif.DockRobot.c59_shortest",
    "Verif.DockRobot.c59_value",
    "Verif.DockRobot.c59_admissible",
    "Verif.DockRobot.c59_astar",
    "Verif.DockRobot.c59_inconsistent"
   ],
   "note": "Costs as exact rationals, finite adjacency costs, contents in order initially. The heuristic is admissible but not consistent (c59_inconsistent)."
  },
  {
   "property": "C60",
   "status": "partial",
   "theorems": [
    "Verif.Segments.c60_path",
    "Verif.Segments.c60_path_file_partial",
    "Verif.Segments.c60_path_boundary",
    "Verif.Segments.c60_path_total",
    "Verif.Segments.c60_path_cut"
   ],
   "note": "Proved for the text; through a data file for all lengths but 241 characters, where the negation is proved (last character lost, reader uses an uninitialised variable)."
  },
  {
   "property": "C61",
   "status": "partial",
   "theorems": [
    "Verif.Rdb.c61_texts",
    "Verif.Rdb.c61_start",
    "Verif.Rdb.c61_pathfor",
    "Verif.Rdb.c61_history",
    "Verif.Rdb.c61_stable",
    "Verif.Rdb.c61_injective",
    "Verif.Rdb.c61_fresh",
    "Verif.Rdb.c61_unspecified",
    "Verif.Rdb.c61_taken",
    "Verif.Rdb.c61_blocked"
   ],
   "note": "Proved for attribute sets without the value UNSPECIFIED; with it two sets can get the same path (c61_unspecified). The path may be an existing directory (c61_taken), and the program stops if a file is in the way (c61_blocked)."
  },
  {
   "property": "C62",
   "status": "partial",
   "theorems": [
    "Verif.Rdb.c62_exact",
    "Verif.Rdb.c62_stored",
    "Verif.Rdb.c62_found",
    "Verif.Rdb.c62_sound_partial",
    "Verif.Rdb.c62_unsound",
    "Verif.Rdb.c62_dot",
    "Verif.Rdb.c62_empty"
   ],
   "note": "Exact description of the result and completeness proved; the converse is false: a file is also returned if it lacks a key of the query and no directory on its path has it (c62_unsound). A query with value '.' may never return (c62_dot)."
  },
  {
   "property": "C63",
   "status": "partial",
   "theorems": [
    "Verif.Rdb.c63_exact",
    "Verif.Rdb.c63_stored",
    "Verif.Rdb.c63_roundtrip",
    "Verif.Rdb.c63_loops"
   ],
   "note": "Proved if the root has a name and its directory holds no key file; keys the file lacks come back as UNSPECIFIED (c63_stored). For a data base at . or / the call never returns (c63_loops)."
  },
  {
   "property": "C64",
   "status": "partial",
   "theorems": [
    "Verif.Rta.c64_solution",
    "Verif.Rta.c64_failure",
    "Verif.Rta.c64_safe",
    "Verif.Rta.c64_expansions",
    "Verif.Rta.c64_generated",
    "Verif.Rta.c64_second_search"
   ],
   "note": "First search of an object in full; further searches after reset() report garbage (c64_second_search)."
  },
  {
   "property": "C65",
   "status": "partial",
   "theorems": [
    "Verif.Rta.c65_look",
    "Verif.Rta.c65_choice_partial",
    "Verif.Rta.c65_alias"
   ],
   "note": "Consistent heuristic, no limit. c65_choice_partial for states none of whose successors is the initial state; next to the initial state a wrong value is stored (c65_alias)."
  },
  {
   "property": "C66",
   "status": "partial",
   "theorems": [
    "Verif.Rta.c66_exact_partial",
    "Verif.Rta.c66_incomplete"
   ],
   "note": "Violated: c66_incomplete; c66_exact_partial for exact heuristics."
  },
  {
   "property": "C67",
   "status": "proved",
   "theorems": [
    "Verif.Search.c67_heap_refines",
    "Verif.Search.c67_heap_safe",
    "Verif.Search.c67_bucket_refines",
    "Verif.Search.c67_bucket_safe",
    "Verif.Search.c67_bucket_negative",
    "Verif.Search.c67_astar_heap",
    "Verif.Search.c67_greedy_heap",
    "Verif.Search.c67_wastar",
    "Verif.Search.c67_astar_buckets",
    "Verif.Search.c67_greedy_buckets"
   ],
   "note": "Bucketed lists need a non-negative heuristic; otherwise undefined (c67_bucket_negative). Costs are exact."
  },
  {
   "property": "C68",
   "status": "partial",
   "theorems": [
    "Verif.Search.c68_solution_heap",
    "Verif.Search.c68_solution_buckets",
    "Verif.Search.c68_beam_heap",
    "Verif.Search.c68_beam_buckets",
    "Verif.Search.c68_dropdups_heap",
    "Verif.Search.c68_dropdups_buckets",
    "Verif.Search.c68_wide_heap",
    "Verif.Search.c68_wide_buckets",
    "Verif.Search.c68_bad_width",
    "Verif.Search.c68_no_width",
    "Verif.Search.c68_stale_heap",
    "Verif.Search.c68_stale_buckets",
    "Verif.Search.c68_lost_heap",
    "Verif.Search.c68_lost_buckets"
   ],
   "note": "Solutions, beam contents, -dropdups and wide beams proved. Violated, with witnesses: without -dropdups a narrow beam keeps the indices of dropped nodes; reaching such a node again more cheaply fails an assertion or silently loses a node (stale, lost); without -width an uninitialised member is read (no_width)."
  },
  {
   "property": "C69",
   "status": "proved",
   "theorems": [
    "Verif.Lss.c69_solution",
    "Verif.Lss.c69_lengths",
    "Verif.Lss.c69_expansions"
   ],
   "note": "The memory limit and the time limit are any function of the counters; c69_expansions allows one more local search for a run that is cut off."
  },
  {
   "property": "C70",
   "status": "proved",
   "theorems": [
    "Verif.Lss.c70_learn",
    "Verif.Lss.c70_step",
    "Verif.Lss.c70_weight"
   ],
   "note": "c70_weight: weight 1 is needed."
  },
  {
   "property": "C71",
   "status": "partial",
   "theorems": [
    "Verif.Lss.c71_complete_partial",
    "Verif.Lss.c71_finds_partial",
    "Verif.Lss.c71_unsolvable",
    "Verif.Lss.c71_dead_end",
    "Verif.Lss.c71_unsolvable_fails",
    "Verif.Lss.c71_onestep_endless"
   ],
   "note": "Violated with the one-step option: on a graph of a few states, with a consistent heuristic and a lookahead of 3, the search paces between two states for ever (c71_onestep_endless). Violated for unsolvable problems: nothing is ever reported, the assertion at lsslrtastar.hpp:451 fails or the search never ends. That a goal can be reached from everywhere is needed (dead end: assertion, or front of an empty heap with -complete). Without the one-step option the claim is proved."
  },
  {
   "property": "C72",
   "status": "proved",
   "theorems": [
    "Verif.Lss.c72_optimal",
    "Verif.Lss.c72_short"
   ],
   "note": "c72_short: with less lookahead the claim is false."
  },
  {
   "property": "C73",
   "status": "partial",
   "theorems": [
    "Verif.HashBytes.c73_value_partial",
    "Verif.HashBytes.c73_same_partial",
    "Verif.HashBytes.c73_exact",
    "Verif.HashBytes.c73_overread",
    "Verif.HashBytes.c73_mix",
    "Verif.HashBytes.c73_final",
    "Verif.HashBytes.c73_short"
   ],
   "note": "Violated: a key at a multiple of 4 whose length is not a multiple of 4 is read up to the end of its last word (c73_overread; the 25 bytes of Plat2d). Little-endian branches."
  },
  {
   "property": "C74",
   "status": "proved",
   "theorems": [
    "Verif.Tiles.c74_solvable",
    "Verif.Tiles.c74_unsolvable",
    "Verif.Tiles.c74_astar",
    "Verif.Tiles.c74_idastar"
   ],
   "note": "The characterisation is the theorem on sliding puzzles, proved for all rectangles; A* on the models of the real lists, with the bound of 2^29 states of the closed list (12 cells)."
  },
  {
   "property": "C75",
   "status": "partial",
   "theorems": [
    "Verif.Tiles.Gen.c75_odd_partial",
    "Verif.Tiles.Gen.c75_square_partial",
    "Verif.Tiles.Gen.c75_even",
    "Verif.Tiles.Gen.c75_goal_refused",
    "Verif.Tiles.Gen.c75_opposite",
    "Verif.Tiles.Gen.c75_file",
    "Verif.Tiles.Gen.c75_generate_partial",
    "Verif.Tiles.Gen.c75_unsolvable_written",
    "Verif.Tiles.Gen.c75_wide_refused",
    "Verif.Tiles.Gen.c75_column_accepted"
   ],
   "note": "Violated by the code for boards of even width that are not square and for single columns (negations proved, with the exact condition); proved for odd width and square boards."
  },
  {
   "property": "C76",
   "status": "proved",
   "theorems": [
    "Verif.Pancake.c76_sortable",
    "Verif.Pancake.c76_astar",
    "Verif.Pancake.c76_idastar"
   ],
   "note": "A* on the models of the real lists, with the bound of 2^29 states of the closed list (12 cakes)."
  },
  {
   "property": "C77",
   "status": "proved",
   "theorems": [
    "Verif.GridNav.c77_astar",
    "Verif.GridNav.c77_wastar",
    "Verif.GridNav.c77_greedy"
   ],
   "note": "Paths are specified by Step and Path, without operators; costs are exact reals; the goal of weighted A* on four-way life maps must not be in the last row, where the heuristic is -1 at the goal."
  },
  {
   "property": "C78",
   "status": "partial",
   "theorems": [
    "Verif.Bugsy.c78_bugsy_solution_partial",
    "Verif.Bugsy.c78_bugsy_complete_partial",
    "Verif.Bugsy.c78_bugsy_defined",
    "Verif.Bugsy.c78_uninitialised",
    "Verif.Bugsy.c78_slim_solution",
    "Verif.Bugsy.c78_slim_complete",
    "Verif.Bugsy.c78_slim_defined",
    "Verif.Bugsy.c78_bugsy_resort",
    "Verif.Bugsy.c78_slim_resort"
   ],
   "note": "Violated by Bugsy: without -dlms (or with -hhat but not -interph) every search reads an uninitialised variable (c78_uninitialised; c78_bugsy_defined characterises exactly when). With the variables initialised to anything, and for Bugsy_slim always, proved. Resorting restores the order unless there are NaNs."
  },
  {
   "property": "C79",
   "status": "proved",
   "theorems": [
    "Verif.Bugsy.c79_bugsy_optimal",
    "Verif.Bugsy.c79_bugsy_total",
    "Verif.Bugsy.c79_slim_not_optimal"
   ],
   "note": "Exact arithmetic over any ordered field; the options must be such that no variable is read uninitialised (C78)."
  },
  {
   "property": "C80",
   "status": "partial",
   "theorems": [
    "Verif.Bugsy.c80_options_partial",
    "Verif.Bugsy.c80_last_flag",
    "Verif.Bugsy.c80_weights"
   ],
   "note": "Violated: a flag given as last argument is ignored (c80_last_flag). Options followed by at least one more argument are understood."
  },
  {
   "property": "C81",
   "status": "partial",
   "theorems": [
    "Verif.Geom.c81_box",
    "Verif.Geom.c81_box_corners",
    "Verif.Geom.c81_box_points",
    "Verif.Geom.c81_isect_point",
    "Verif.Geom.c81_hits_partial",
    "Verif.Geom.c81_sound",
    "Verif.Geom.c81_overlap_missed",
    "Verif.Geom.c81_crossing_missed",
    "Verif.Geom.c81_quadratic",
    "Verif.Geom.c81_lines"
   ],
   "note": "Violated: a segment inside a parallel one is not hit (and the test is not symmetric), crossings of nearly parallel long segments are missed; both negations proved. The positive results need segments that are vertical, or parallel, exactly or not by the tolerance."
  },
  {
   "property": "C82",
   "status": "partial",
   "theorems": [
    "Verif.Geom.c82_parity",
    "Verif.Geom.c82_enclosed",
    "Verif.Geom.c82_crossing",
    "Verif.Geom.c82_outside",
    "Verif.Geom.c82_flat_wrong",
    "Verif.Geom.c82_hits_partial",
    "Verif.Geom.c82_minisect"
   ],
   "note": "Violated for sides with slope below the tolerance (c82_flat_wrong: a point outside the box is contained). Proved for inputs away from the tolerances; hits has the exception of C81."
  },
  {
   "property": "C83",
   "status": "proved",
   "theorems": [
    "Verif.Geom.c83_defined",
    "Verif.Geom.c83_undefined",
    "Verif.Geom.c83_shape",
    "Verif.Geom.c83_no_colinear",
    "Verif.Geom.c83_two_vertices"
   ],
   "note": "Defined iff two vertices differ; three equal points pass the check of the constructor and are undefined behaviour. The colinearity test is modelled without its tolerance."
  },
  {
   "property": "C84",
   "status": "partial",
   "theorems": [
    "Verif.Vis.c84_visible_partial",
    "Verif.Vis.c84_clear",
    "Verif.Vis.c84_hidden",
    "Verif.Vis.c84_obstructed",
    "Verif.Vis.c84_in_bound",
    "Verif.Vis.c84_min",
    "Verif.Vis.c84_max_partial",
    "Verif.Vis.c84_max_wrong",
    "Verif.Vis.c84_inside_wall",
    "Verif.Vis.c84_inside_polygon",
    "Verif.Vis.c84_extent"
   ],
   "note": "Partial: tolerances; the y of PolyMap::max is wrong in the code (witness c84_max_wrong); segments inside a wall or inside an obstacle count as visible (witnesses)."
  },
  {
   "property": "C85",
   "status": "partial",
   "theorems": [
    "Verif.Vis.c85_build",
    "Verif.Vis.c85_add",
    "Verif.Vis.c85_symm",
    "Verif.Vis.c85_scale",
    "Verif.Vis.c85_translate",
    "Verif.Vis.c85_clear_partial",
    "Verif.Vis.c85_twice",
    "Verif.Vis.c85_wall_missed"
   ],
   "note": "Partial: the first and last thousandth of a line of sight are not examined by the code, so links may cross thin walls (witness c85_wall_missed); some links are stored twice (c85_twice)."
  },
  {
   "property": "C86",
   "status": "partial",
   "theorems": [
    "Verif.Vis.c86_problem",
    "Verif.Vis.c86_states",
    "Verif.Vis.c86_eqv",
    "Verif.Vis.c86_consistent",
    "Verif.Vis.c86_astar",
    "Verif.Vis.c86_wastar",
    "Verif.Vis.c86_greedy",
    "Verif.Vis.c86_straight",
    "Verif.Vis.c86_pathcost",
    "Verif.Vis.c86_drawn",
    "Verif.Vis.c86_no_route",
    "Verif.Vis.c86_unchecked"
   ],
   "note": "Proved for well-formed graphs over the reals; the code draws also an empty answer, which is undefined (c86_no_route), and does not validate graphs that it reads (c86_unchecked)."
  },
  {
   "property": "C87",
   "status": "proved",
   "theorems": [
    "Verif.Plat.c87_walls",
    "Verif.Plat.c87_fuel",
    "Verif.Plat.c87_open_ub"
   ],
   "note": "All sequences of actions in closed levels, coordinates rational; c87_open_ub shows what happens in levels without border (undefined behaviour). Exact arithmetic instead of doubles: all values are multiples of 1/40 for x and 1/4 for y, the latter exact in doubles."
  },
  {
   "property": "C88",
   "status": "partial",
   "theorems": [
    "Verif.Plat.c88_distance",
    "Verif.Plat.c88_dry_partial",
    "Verif.Plat.c88_wet_partial",
    "Verif.Plat.c88_aborts"
   ],
   "note": "The code violates the claim: after an odd number of frames in water the player falls at 12.25 pixels per frame and the assertion dy <= Maxy fails (c88_aborts, closed level). Proved: levels without water; with water it is the only assertion that can fail, and 12.25 is the true bound."
  },
  {
   "property": "C89",
   "status": "partial",
   "theorems": [
    "Verif.Plat.c89_pack",
    "Verif.Plat.c89_equality",
    "Verif.Plat.c89_ident",
    "Verif.Plat.c89_pruned",
    "Verif.Plat.c89_revop_wrong",
    "Verif.Plat.c89_hash_wrong",
    "Verif.Plat.c89_eq_not_trans"
   ],
   "note": "Packing, equality on reachable states, ident and pruned operators are proved. The code violates the rest: the reverse operator does not lead back next to a wall (c89_revop_wrong); comparison is up to a tolerance but the hash takes the bits (c89_hash_wrong, for doubles that differ in the last bit)."
  },
  {
   "property": "C90",
   "status": "partial",
   "theorems": [
    "Verif.Plat.c90_admissible_partial",
    "Verif.Plat.c90_goal"
   ],
   "note": "Proved for the estimate used when the goal tile is in sight. The other branch (lookup in a visibility graph of the scaled level) is not modelled: admissibility would need that the graph's paths are shortest among curves, a fact about the plane."
  },
  {
   "property": "C91",
   "status": "partial",
   "theorems": [
    "Verif.Plat.c91_read",
    "Verif.Plat.c91_complete",
    "Verif.Plat.c91_ends_partial",
    "Verif.Plat.c91_tall_rejected",
    "Verif.Plat.c91_tiles"
   ],
   "note": "Reading proved completely. The constructor is proved correct for levels not taller than wide; it rejects every level taller than wide (c91_tall_rejected: plat2d.cc compares the column with the height)."
  },
  {
   "property": "C92",
   "status": "partial",
   "theorems": [
    "Verif.Grid2Poly.c92_map_partial",
    "Verif.Grid2Poly.c92_connected",
    "Verif.Grid2Poly.c92_room_lost",
    "Verif.Grid2Poly.c92_full",
    "Verif.Grid2Poly.c92_open",
    "Verif.Grid2Poly.c92_endless",
    "Verif.Grid2Poly.c92_no_rows",
    "Verif.Grid2Poly.c92_too_large"
   ],
   "note": "Proved for all bitmaps with blocked edge cells and at least one free cell: obstructed or not is decided exactly by reachability from the lowest right-most free cell, hence by the bitmap when free cells hang together. Negations: separate rooms, bitmaps without free cells, open edges (wrong bound, endless loop), no rows."
  },
  {
   "property": "C93",
   "status": "proved",
   "theorems": [
    "Verif.Pbm.c93_read",
    "Verif.Pbm.c93_only",
    "Verif.Pbm.c93_total",
    "Verif.Pbm.c93_map"
   ],
   "note": "The header's numbers are taken as scanned. Width zero is a division by zero (c93_total)."
  },
  {
   "property": "C94",
   "status": "partial",
   "theorems": [
    "Verif.Fhat.c94_uninit",
    "Verif.Fhat.c94_solution",
    "Verif.Fhat.c94_lengths",
    "Verif.Fhat.c94_expansions",
    "Verif.Fhat.c94_safe_partial",
    "Verif.Fhat.c94_errors",
    "Verif.Fhat.c94_learn_partial",
    "Verif.Fhat.c94_is_lss",
    "Verif.Fhat.c94_finds_partial",
    "Verif.Fhat.c94_onestep_endless",
    "Verif.Fhat.c94_overestimate",
    "Verif.Fhat.c94_decrease",
    "Verif.Fhat.c94_mean"
   ],
   "note": "Violated: the parent of a new node is read before it is written (c94_uninit); if the read is harmless, learned values can exceed the true cost and decrease when a node is reopened (c94_overestimate, c94_decrease), the reported errors are sums divided by n+1 instead of means (c94_mean), and with -onestep a search can go on for ever (c94_onestep_endless). Missing: whether a search without -onestep ends for a distance estimate that is not 0."
  },
  {
   "property": "C95",
   "status": "partial",
   "theorems": [
    "Verif.GridFile.c95_ruml",
    "Verif.GridFile.c95_ruml_only",
    "Verif.GridFile.c95_octile",
    "Verif.GridFile.c95_octile_only",
    "Verif.GridFile.c95_octile_chars",
    "Verif.GridFile.c95_octile_last",
    "Verif.GridFile.c95_uniform",
    "Verif.GridFile.c95_sound",
    "Verif.GridFile.c95_lenient"
   ],
   "note": "Well-formed files are read as drawn, and whatever is accepted contains a drawing that the map shows. Violated: broken words in headers are accepted, unknown characters read an uninitialised table, octile maps without final line break are refused."
  },
  {
   "property": "C96",
   "status": "partial",
   "theorems": [
    "Verif.GridFile.c96_instance",
    "Verif.GridFile.c96_sound",
    "Verif.GridFile.c96_astar",
    "Verif.GridFile.c96_octile",
    "Verif.GridFile.c96_octile_ub",
    "Verif.GridFile.c96_coordinates",
    "Verif.GridFile.c96_randinst",
    "Verif.GridFile.c96_randinst_ub"
   ],
   "note": "Holds for maps of the Ruml group and seeds; exact arithmetic, up to 2^29 cells for the search. Violated: octile maps (lifecost unset), unchecked coordinates, randinst reads beyond the map."
  },
  {
   "property": "C97",
   "status": "partial",
   "theorems": [
    "Verif.GridFile.c97_square_partial",
    "Verif.GridFile.c97_map_partial",
    "Verif.GridFile.c97_wide",
    "Verif.GridFile.c97_tall"
   ],
   "note": "Proved for square maps; the code is wrong for all others."
  },
  {
   "property": "C98",
   "status": "partial",
   "theorems": [
    "Verif.Dta.c98_table",
    "Verif.Dta.c98_forgets",
    "Verif.Dta.c98_right_partial",
    "Verif.Dta.c98_wrong",
    "Verif.Dta.c98_empty",
    "Verif.Dta.c98_abort"
   ],
   "note": "the code violates the claim: bins are taken with max instead of min, so all samples are in one bin (c98_table, c98_wrong); right only if all samples have the same values (c98_right_partial)"
  },
  {
   "property": "C99",
   "status": "partial",
   "theorems": [
    "Verif.Dta.c99_stop",
    "Verif.Dta.c99_stops",
    "Verif.Dta.c99_dead_end",
    "Verif.Dta.c99_no_h",
    "Verif.Dta.c99_go_partial",
    "Verif.Dta.c99_intended",
    "Verif.Dta.c99_cache",
    "Verif.Dta.c99_negative",
    "Verif.Dta.c99_infinite"
   ],
   "note": "the code violates the claim: minima forget earlier nodes (c99_cache), and negative or infinite values are converted to unsigned int before the decision to stop (c99_negative, c99_infinite, c99_dead_end); c99_go_partial says what 'go on' does mean"
  }
 ]
}