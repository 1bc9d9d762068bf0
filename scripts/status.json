{
 "C01": {
  "status": "proved",
  "note": "Exact arithmetic and machine numbers (finite set, rounded addition). C01_absorbed_step_fails: when the rounded addition absorbs the time step the constructor never returns."
 },
 "C06": {
  "status": "partial",
  "note": "False in the code when the search interval is a single instant at which a slice starts (C06_invert_fails); proved otherwise."
 },
 "C10": {
  "status": "partial",
  "note": "is_empty and == proved in full. is_subset is proved when the slicing of the left tube refines that of the right one (identical slicings included); it is false otherwise (C10_is_subset_fails)."
 },
 "C11": {
  "status": "partial",
  "note": "Shift proved in full. Truncation is proved at existing gates, and at all instants strictly inside the new time domain otherwise; strictly inside a slice the end gate is wrong (C11_truncate_fails)."
 },
 "C13": {
  "status": "partial",
  "note": "partial_integral and integral([t]) proved (enclosure, and exactness with exact arithmetic). integral([t1],[t2]) is proved for t1 <= t2 (the intervals may overlap) and is false for t1 > t2 (C13_integral2_fails)."
 },
 "C14": {
  "status": "proved",
  "note": "Structure, codomain, evaluation and inversion. In addition, partial integrals through the tree: C14_tree_integral_partial, false when a partly covered slice has a null bound (C14_tree_integral_fails)."
 },
 "C15": {
  "status": "partial",
  "note": "Values (codomain, evaluation on intervals) proved for every history. Partial integrals: proved for histories without value queries, false otherwise (C15_integral_fails); codomain bounds: C15_bounds_fails."
 },
 "C18": {
  "status": "partial",
  "note": "Soundness proved for trajectories bounded by BOUNDED_INFINITY (the largest float); beyond it the clipping loses solutions (C18_beyond_bounded_infinity_fails). Contraction proved for domains without bound beyond it (C18_contract_enlarges_fails otherwise). The polygon bounding box is in exact arithmetic; half-bounded derivative domains are modelled, for both possible values of the product of an infinite number by [0,0]."
 },
 "C19": {
  "status": "partial",
  "note": "contract(t,z,const y): the instant is always kept and the value is kept when the inversion has at most one interval; false otherwise (C19_eval_fails). contract(double t,z,y,w): proved with and without propagation, for trajectories bounded by BOUNDED_INFINITY; the slicing is preserved without propagation and not with it (C19_eval_instant_slicing_fails). contract(Interval t,z,y,w): proved when there are solutions at two instants and, for each slice bound strictly inside the inverted t, a solution before and one after it; false otherwise (C19_eval_interval_fails, C19_eval_interval_point_fails)."
 },
 "C21": {
  "status": "proved",
  "note": "Soundness as stated (values in S at all times), contraction, exact effect. With a restricted time domain, a slice only partly in it is contracted as a whole, so trajectories whose values are in S on the restricted time domain only may be lost (C21_restricted_domain_fails)."
 },
 "C22": {
  "status": "proved",
  "note": "Soundness, contraction, exact effect of the guess. Functions which are not inter-temporal. For delta < 1, accepted by the constructor, the loop may never end (C22_small_delta_fails)."
 },
 "C25": {
  "status": "proved",
  "note": "Histories of add, contract (stopped after any number of iterations), contract_ordered_mode, trigger_all_contractors, reset_interm_vars. Contractors: IBEX contractors on intervals and slices, equalities, T_COMPONENT, and any other one assumed to keep the solution (codac contractors are proved separately)."
 },
 "C26": {
  "status": "partial",
  "note": "Proved for all contractors but sub-networks, which stay active out of the queue (C26_subnet_fails)."
 },
 "C27": {
  "status": "partial",
  "note": "Proved for ratio 0, bounded interval/box domains containing a solution, IBEX contractors and equalities, for all histories; general form with shared memory under explicit hypotheses; termination. False for a positive ratio, unbounded domains, sub-networks, flat boxes, an interrupted contract() with shared memory, contract_ordered_mode() (the _fails theorems)."
 },
 "C28": {
  "status": "partial",
  "note": "Proved when the saved volume is not zero; a degenerate interval that becomes empty triggers nothing (C28_degenerate_fails)."
 },
 "C23": {
  "status": "partial",
  "note": "All combinators proved except CtcTransform, which intersects with fbwd(box) and loses solutions (C23_transform_fails); contraction and conditional soundness proved."
 },
 "C35": {
  "status": "partial",
  "note": "SepBox, SepTransform, SepQInterProjF proved; SepFixPoint unsound when both sides are contracted (C35_fixpoint_fails), sound when one side is. SepProj is C94."
 },
 "C29": {
  "status": "partial",
  "note": "Cover, no solution lost, size of undetermined boxes, regular-mode OUT boxes: proved. Non-regular OUT boxes: proved in their interior when the contracted box is not flat (C29_out_partial); with a flat contracted box and the closed difference of IBEX, false (C29_out_flat_fails)."
 },
 "C30": {
  "status": "partial",
  "note": "Proved in both modes when the separator shows an empty box as empty in its first component; otherwise, in regular mode, a box is lost (C30_cover_fails). Non-regular labels: interior of the boxes."
 },
 "C32": {
  "status": "partial",
  "note": "Tiling, labels, termination proved for contractors and separators; for functions, IN leaves proved when the function is defined everywhere in the box, false otherwise (C32_function_fails)."
 },
 "C33": {
  "status": "partial",
  "note": "Proved on a root paving, whatever the flags; false for a copy of a paving (C33_copy_fails) and for a sub-paving (C33_subpaving_fails)."
 },
 "C34": {
  "status": "partial",
  "note": "Vectors of tubes: proved. Tube of dimension one, box [time] x [value]: tiling, OUT and termination proved; IN leaves proved except at the time of gates, where it is false (C34_gate_fails)."
 },
 "C36": {
  "status": "partial",
  "note": "Proved for trajectories starting empty or from a map, all histories; truncate, shift, both samplings (with termination), make_continuous. The constructor from two lists leaves the codomain empty (C36_from_lists_fails). Trajectories defined by a TFunction are only modelled for arithmetic."
 },
 "C38": {
  "status": "partial",
  "note": "Reflexive, transitive; equality in both directions or with the same number of points gives the same trajectory. Not symmetric, and equal trajectories may have different values (C38_equality_fails)."
 },
 "C40": {
  "status": "partial",
  "note": "YES and NO proved for every bisection instant and evaluation. Termination proved for exact midpoints (C40_terminates_partial), false with machine numbers (C40_machine_bisection_fails)."
 },
 "C54": {
  "status": "partial",
  "note": "Proved for a constant time step; false otherwise even for t -> t (C54_variable_step_fails)."
 },
 "C55": {
  "status": "partial",
  "note": "Arithmetic operators proved. min, max, atan2 proved for operands with the same instants, false otherwise (C55_min_max_fails); x op= y is lost when x is defined by a function and y by a map (C55_assign_analytic_fails)."
 },
 "C41": {
  "status": "partial",
  "note": "All operators except opThickInter: soundness, commutativity, exactness of || and !. opThickInter is not commutative and loses values (C41_thick_inter_fails)."
 },
 "C42": {
  "status": "proved",
  "note": "ThickAnd, ThickOr, ThickInter over any non-empty list, ThickQInter over any list (with the constant 1000 of the code), and the counters, which are proved to be the best ones."
 },
 "C43": {
  "status": "partial",
  "note": "intersects, is_subset, superset, subset, and the IN and OUT answers of ThickInterval::is_inside proved. is_not_subset, the other answers of is_inside, & are proved away from shared bounds / above-1e10 bounds and fail there; is_disjoint and ThickBox::is_subset(ThickBox) are wrong everywhere (_fails theorems)."
 },
 "C48": {
  "status": "partial",
  "note": "No trajectory following the data is lost (all sequences), order of the data, effect on the last slice. The tube only shrinks when the data are in its envelopes; otherwise set_envelope enlarges it (C48_fails)."
 },
 "C49": {
  "status": "partial",
  "note": "Non-empty search strings: full specification and termination. With an empty search string the loop never ends (C49_empty_fails)."
 },
 "C56": {
  "status": "partial",
  "note": "Sound for an outer radius at least 1. Below, the bounding box built from the squared radius is too small (C56_disk_fails); setParams leaves a stale bounding box (C56_set_params_fails)."
 },
 "C24": {
  "status": "partial",
  "note": "CtcDist and CtcSegment in full. CtcPolar keeps the solutions with rho > 0 and sin(theta) != 0 (all those with rho > 0 if interval division is relational). It loses the origin (C24_polar_origin_fails) and solutions with theta = [0] and y = [0,1] because of a division by [0,0] (C24_polar_zero_fails). Negative rho is outside of the documented constraint."
 },
 "C46": {
  "status": "partial",
  "note": "Proved for tubes containing the trajectory (and velocity) with a margin, for any sequence of calls; termination, the meaning of IN and the size of UNKNOWN proved. False without margin: the tests reject a zero on the boundary (C46_thin_fails, C46_rest_fails). compute_proofs is the subject of C115."
 },
 "C44": {
  "status": "proved",
  "note": "exact arithmetic on the coordinates (the interval cross products are degenerate). C44_convex_hull: distinct input points, hull contains the input, convex; C44_counterclockwise when there are more than three distinct points; C44_extreme: no extreme point is missing. C44_order_fails: three points are returned in the order given; C44_minimal_fails: aligned points may be vertices"
 },
 "C45": {
  "status": "proved",
  "note": "time in any linear order ([-oo,oo] included); a trajectory belongs to a tube when its values are in the codomain of each slice and gate. C45_sample, C45_history (any sequence of calls), C45_iterator"
 },
 "C57": {
  "status": "partial",
  "note": "C57_eval_partial: same evaluation at all instants except at t when t is already the lower bound of a slice without gate; C57_eval_fails: there the new gate takes the codomain of the next slice only, or is unbounded at the lower bound of the domain. C57_nogate_fails: a gate appears at the lower bound of the domain. C57_eval_sound: no trajectory is lost"
 },
 "C58": {
  "status": "partial",
  "note": "C58_constructor, C58_delete_gates for a domain with a < b, C58_interval_partial for dt > 0 inside the domain; C58_interval_fails: dt = 0 never ends; C58_delete_gates_fails: no slice is left on a degenerate domain"
 },
 "C16": {
  "status": "proved",
  "note": "for consistent tubes, as stated; C16_any_gates says what is read otherwise, C16_gates_fails is a witness"
 },
 "C17": {
  "status": "partial",
  "note": "intervals, boxes: proved. Trajectories: proved when the domains of the trajectory are the hulls of its points (all histories of C36); C17_from_lists_fails for Trajectory(list_t, list_x). Dimension 2^15 and more: C17_large_box_fails"
 },
 "C60": {
  "status": "partial",
  "note": "set(x) gives x everywhere when x meets the codomain of each slice and gate (C60_set_partial); when it does not, the tube is emptied (C60_set_fails)"
 },
 "C61": {
  "status": "partial",
  "note": "x = y gives exactly y when y is included in the old x, and never more than y (C61_assign_partial); otherwise gates keep a part of the old x, or the tube is emptied (C61_assign_fails)"
 },
 "C64": {
  "status": "partial",
  "note": "proved when the domain goes on after b or has a gate at b (C64_assign_partial), and over histories (C64_history); fails at the end of the domain (C64_end_fails), after it (C64_beyond_fails) and for values disjoint from the overwritten ones (C64_disjoint_fails)"
 },
 "C50": {
  "status": "proved",
  "note": "exact characterisation of the trajectories after set(y,[a,b]), a<b inside the domain"
 },
 "C65": {
  "status": "partial",
  "note": "Polygons whose vertices are aligned: contains() is never NO for a point of the polygon but may be YES outside (C65_aligned_fails). Exact arithmetic; the argument is a point (not a thick point)."
 },
 "C66": {
  "status": "partial",
  "note": "The smallest box only when the vertices are not aligned (C66_aligned_fails otherwise). Exact arithmetic."
 },
 "C67": {
  "status": "partial",
  "note": "YES is wrong for an argument whose vertices are aligned (C67_aligned_fails). Exact arithmetic."
 },
 "C68": {
  "status": "partial",
  "note": "Exact when the vertices of each polygon are not aligned (C68_point_fails otherwise); no common point is ever lost. Exact arithmetic."
 },
 "C69": {
  "status": "partial",
  "note": "Sums and products with boxes smaller than 1e-10 that are not points may lose points (C69_small_box_fails). Exact arithmetic; unbounded thick points are outside the model."
 },
 "C70": {
  "status": "partial",
  "note": "The area may be negative for three points (C70_area_fails)."
 },
 "C71": {
  "status": "proved",
  "note": "For any trajectory in a well-formed state (see C36)."
 },
 "C72": {
  "status": "partial",
  "note": "Proved when no inner node carries neg_val without val, in particular for computed pavings and a neg_val not met by their initial value. Inner nodes of computed pavings keep the value UNKNOWN: rejecting UNKNOWN boxes loses all the leaves (C72_negative_value_fails)."
 },
 "C73": {
  "status": "partial",
  "note": "Proved for slices with a bounded envelope, bounded or unknown derivative (contains, convex, defined), exact for a bounded derivative. Half-bounded derivatives and unbounded envelopes are not modelled. For an empty slice the code returns the square [-9999,9999]^2 instead of an empty polygon (C73_empty_fails)."
 },
 "C74": {
  "status": "partial",
  "note": "Proved unless t is a single instant where a slice starts, for which the code returns the empty set (C74_interpol_fails); smallest on one slice for a bounded derivative and joined gates."
 },
 "C75": {
  "status": "partial",
  "note": "The list version is proved. The interval version is proved unless search is a single instant where a slice starts, for which the code returns the empty set (C75_invert_fails); smallest on one slice."
 },
 "C51": {
  "status": "proved",
  "note": "evaluation of IBEX is a parameter with the inclusion property; functions of the time alone are in C122"
 },
 "C76": {
  "status": "proved",
  "note": "scalar delay on tubes; TFnc loop for any function of an interval of time"
 },
 "C77": {
  "status": "proved",
  "note": ""
 },
 "C78": {
  "status": "proved",
  "note": "the bisector of IBEX is a parameter that covers the interval"
 },
 "C79": {
  "status": "proved",
  "note": ""
 },
 "C80": {
  "status": "proved",
  "note": "exact sums of widths"
 },
 "C81": {
  "status": "partial",
  "note": "primitives that stay within BOUNDED_INFINITY (the largest float); beyond it CtcDeriv clips: C81_bound_fails"
 },
 "C82": {
  "status": "proved",
  "note": ""
 },
 "C83": {
  "status": "proved",
  "note": ""
 },
 "C84": {
  "status": "partial",
  "note": "max_diam, max_gate_diam and volume proved with exact sums; diam(v) uses the values as instants (C84_diam_fails); the documented formula of volume() is not the one computed (C84_volume_box_fails)"
 },
 "C85": {
  "status": "proved",
  "note": "the box contractor CtcFwdBwd of IBEX is a parameter"
 },
 "C86": {
  "status": "partial",
  "note": "simplify proved in exact arithmetic for counterclockwise polygons; rotate for thick points that are points or not smaller than 1e-10; C86_parallel_fails, C86_least_impact_fails, C86_clockwise_fails, C86_inflate_fails"
 },
 "C87": {
  "status": "partial",
  "note": "proved for solutions within the domain [-9999,9999], slices on which the entries of the exponential stay between their first and last values (always for CtcChain), and thick points that are points or not smaller than the threshold; exact arithmetic and exact exponential. The rest is false: C87_clip_fails, C87_rotation_fails, C87_small_fails; C87_contracting_fails shows an envelope that grows"
 },
 "C88": {
  "status": "proved",
  "note": "for signed permutations; the constructor also accepts other lists, for which the contractor loses solutions: C88_not_permutation_fails"
 },
 "C89": {
  "status": "proved",
  "note": "exact arithmetic; two boxes of the same size"
 },
 "C90": {
  "status": "proved",
  "note": "exact arithmetic; with doubles is_bisectable() does not imply that bisect() succeeds: C90_bisectable_fails; the volume of unbounded boxes depends on the order of components: C90_volume_order_fails"
 },
 "C91": {
  "status": "proved",
  "note": "Interval::diff of IBEX is a parameter with a specification, met by ibexDiff; when nothing is left the list is either empty or one empty box: C91_nothing_left_fails; with compactness a flat y is not removed: C91_flat_fails"
 },
 "C92": {
  "status": "proved",
  "note": "static sizes; boxes_list(x) with an argument does not filter: C92_intersect_fails; dynamic sizes: C92_dynamic_fails"
 },
 "C93": {
  "status": "proved",
  "note": "bounded temporal domain; exact for vectors only when the slicings agree: C93_vector_fails; to_codac1 of a tube on one instant fails on an assertion: C93_instant_fails; the versions with polygons are not modelled"
 },
 "C94": {
  "status": "partial",
  "note": "proved: soundness of the inner box (C94_inner), no point removed from both boxes (C94_cover), termination (C94_stops), and the outer box for the points that the inner contractor keeps (C94_outer_partial); false in general for the outer box: C94_outer_fails gives a correct separator and a run without failing assertion that removes points of the projection from x_out. The assertions are taken as enabled"
 },
 "C95": {
  "status": "partial",
  "note": "proved for the calls with domains whose addresses are distinct (Layout.Ok): C95_constraints, C95_nothing_else, C95_parts, C95_links, C95_order, C95_merge, and C95_ready links it to the invariant of the propagation of C26/C27. False for a `double` whose value changes between two calls (C95_double_fails) and for sub-networks when an uninitialised field is 0 (C95_subnet_fails; C95_subnet_partial otherwise). C95_prefix_fails: the order of the keys is not an order without the hypothesis on addresses. Not modelled: add_data (C28), reset_interm_vars, removal of the objects"
 },
 "C96": {
  "status": "partial",
  "note": "false: C96_fails, a tube given to a network loses the trajectories that leave [-99999,99999]; C96_clip_partial: exactly these are lost"
 },
 "C97": {
  "status": "partial",
  "note": "C97_zero_proven_partial: proved for all connected subsets given by get_connected_subsets on pavings obtained by cuts (C97_bisections: those of compute with LargestFirst), all functions continuous on the subset, under the condition that the inclusion function has no zero on the OUT boxes that touch the subset. The code does not check it, and C97_fails shows a proof of a zero that does not exist when it does not hold. A failed assertion gives no answer in the model (the asserts are disabled in release mode); zeros_number and non_singular_jacobian are not covered"
 },
 "C98": {
  "status": "partial",
  "note": "C98_scalar (FORWARD|BACKWARD), C98_scalar_forward, C98_scalar_backward: proved for the systems of one equation, all slicings and gates. C98_oneway_partial: any dimension, one direction, when the gates met before the end are unbounded. In dimension 2 the claim is false (C98_fails: contractStep moves the centre without moving the uncertainties), with contractions=0 (C98_contractions_fails) and with a function that has an interval coefficient (C98_thick_fails). Real numbers: the code computes the centre and the matrices B with doubles and no rounding control, and the inverse of B is approximate"
 },
 "C99": {
  "status": "partial",
  "note": "C99_codomain: codomain() contains all the values; C99_partial: x([a,b]) too when a and b are bounds of slices; C99_ends: the recursion is finite. False for the other intervals (C99_fails: the polynomials are compared to the envelopes at the ends of the slices only), after an update of the tube (C99_update_fails: the synthesis is kept as it was), and the call stops on an assertion for every tube with a constant bound (C99_constant_fails) and when the bisection isolates a part of a long slice (C99_bisect_fails). Exact numbers: the code computes the polynomial with doubles, without rounding control"
 },
 "C100": {
  "status": "partial",
  "note": "C100_subset: it returns and only contracts; C100_out_partial, C100_in_partial: the points of the sector, resp. out of it, are kept, except the origin and, with the division of IBEX, the points of the axis y=0 (as for CtcPolar, C24), and the angles between M_PI and π. C100_angle: all the other points are covered. C100_origin_fails: at the origin both boxes are empty, for every sector"
 },
 "C101": {
  "status": "proved",
  "note": "C101_test, C101_in, C101_out, C101_subset; C101_edges: the edges of a list of vertices; C101_exact: with exact operations the test always answers; C101_far and C101_triangle: meaning of the sum of the angles. The order of the polygon is needed for x_out only. SepBoundaryCtc and the difference of boxes are IBEX (modelled from the documentation of SepPolygon). C101_box_fails: on a box that meets the edges the test gives the answer of the middle, so that PdcInPolygon alone is not a test on boxes"
 },
 "C102": {
  "status": "partial",
  "note": "C102_sivia, C102_terminates, C102_again, C102_reunite hold. C102_separate_partial and C102_ops_partial hold in the cases described there. C102_again_fails: a second Sivia can turn YES into EMPTY; C102_reunite_fails: a second Reunite gives a wrong YES; as a separator the paving loses points when the undecided part is flat (C102_flat_fails), when the separator does not keep the frontier (C102_frontier_fails), for a box larger than the paving (C102_outside_fails), when x_in and x_out differ (C102_two_boxes_fails), after a union (C102_ops_separate_fails); Sivia_ops gives wrong answers when a flat box is emptied (C102_ops_flat_fails) or when a width is exactly eps (C102_ops_eps_fails). Not modelled: files, visitors, floating-point rounding"
 },
 "C103": {
  "status": "proved",
  "note": "C103_hull, C103_hull_terminates, C103_hull_tight, C103_union_bbox, C103_union_bbox_far. C103_union_bbox_twice_fails: the result of SepUnionBbox cannot be given to it again, its assertion x_in == x_out fails"
 },
 "C104": {
  "status": "partial",
  "note": "C104_subset, C104_out_partial, C104_in_partial, C104_bearings: every pose but those at the landmark. C104_landmark_fails: the poses at the landmark are lost on both sides (atan2 of the origin is empty). The period of bwd_imod is the double 2*M_PI: it is assumed to cover 2*pi"
 },
 "C105": {
  "status": "partial",
  "note": "C105_subset, C105_set, C105_out_partial, C105_in_partial: the points with no coordinate strictly inside [x0] or [y0]. C105_inside_fails: the other ones are lost on both sides if bwd_sign is exact (the step 0/1 is inverted as a sign -1/1)"
 },
 "C106": {
  "status": "proved",
  "note": "C106_build, C106_sivia, C106_operators, C106_reunite, C106_change, C106_change_operators, C106_history, C106_terminates, C106_bisector. FastSivia, which labels a whole box IN after one point, is in C142"
 },
 "C107": {
  "status": "partial",
  "note": "C107_contains, C107_outside, C107_inside (boxes which are not flat), C107_transform, C107_isEmpty, C107_checkEmpty, C107_erode, C107_erode_terminates. C107_contains_fails: contains answers EMPTY on a flat box, MAYBE on a box which only touches the root box; C107_contractors_fails: the contractors empty a flat box"
 },
 "C108": {
  "status": "partial",
  "note": "C108_values_partial: the tree and the labels are read back. C108_boxes_fails: for every paving, the boxes which are read are points, load uses bounds[0][0] for all the components"
 },
 "C109": {
  "status": "partial",
  "note": "C109_value, C109_inside_partial, C109_intersect_partial, C109_plane, C109_diff: right when the hull of the two boxes is not flat, when the two boxes do not meet in two directions or more without meeting in all (always so up to dimension 2), and for the boxes with no bound in common with the paved box when the question leaves it. C109_directions_fails: in dimension 3 a box out of the superset gets MAYBE; C109_flat_fails: a point of the subset gets OUT; C109_touch_fails: a box of the subset touching the border of the paved box gets MAYBE"
 },
 "C110": {
  "status": "partial",
  "note": "C110_eval, C110_from_map, C110_parts, C110_sum, C110_scale, C110_assign, C110_assign_own (what an aliased operand gives), C110_equality, C110_tdomain, C110_primitive; C110_matrix_partial for square matrices, C110_cross_partial when the first component has all the instants. C110_matrix_fails: the product by any other matrix violates an assert (the result has the size of the vector); C110_cross_fails: the vector product loses the instants of the other components; C110_assign_fails: x *= x[0] uses the changed x[0] for the next components"
 },
 "C111": {
  "status": "partial",
  "note": "C111_binary, C111_inter_exact, C111_box, C111_unary, C111_scalar, C111_tube_box, C111_assign, C111_assign_trajectories, C111_hull, C111_isEmpty, C111_equal, C111_bisect, C111_bisect_dim, C111_contains; C111_assign_scalar_partial (the operand is not a component; C111_assign_scalar_fails: x *= x[0]); C111_resize_partial (C111_resize_fails: a default-constructed vector); C111_max_gate_diam_partial (C111_max_gate_diam_fails: t is not set when all the gates are points); C111_diam_partial (C111_diam_fails: slice between two consecutive numbers); C111_diag_partial (same slicings; C111_diag_fails otherwise)"
 },
 "C112": {
  "status": "partial",
  "note": "C112_call, C112_each_contractor, C112_variables, C112_unassociated; C112_history_partial: all histories, for networks whose domains are the variable and intermediate variables. C112_constant_fails: the other domains (constants, intervals or tubes outside of the network) stay contracted after a call, the next ones lose solutions. Intermediate variables that are tubes are not modelled: their reset (Tube::operator=) deletes the slices the network refers to"
 },
 "C52": {
  "status": "partial",
  "note": "C52_slices: the loops over the slices; C52_bounded, C52_bounded_exists: exact arithmetic, bounded functions; C52_machine_partial: finite set of numbers, any function, under the assumption that the guess of a larger enclosure is larger, proved for exact midpoints only (C52_guess_monotone). C52_unbounded_fails: without overflow the loop does not end for x'=x on a slice of width 2; C22_small_delta_fails: delta < 1"
 },
 "C113": {
  "status": "partial",
  "note": "C113_instant, C113_const_instant, C113_deriv, C113_contracts, C113_const_contracts: full. C113_interval_partial, C113_const_partial: inversion with at most one interval, as z is intersected with the values on each of the intervals (C113_interval_fails, C113_const_fails). C113_slicing_fails: a call may leave a vector that can no longer be given to the contractor"
 },
 "C114": {
  "status": "partial",
  "note": "C114_distance_partial, C114_none, C114_range, C114_contact: walls across the bearing, closer than 999999, exact arithmetic. C114_along_fails: a wall along the bearing is not seen (0/0); C114_far_fails; C114_contact_fails: when no tried bearing sees a wall the returned bearing is a variable without value"
 },
 "C115": {
  "status": "partial",
  "note": "C115_partial: inclusion functions exclude zero on the OUT leaves around the loop, no IN leaf touches an OUT leaf. C115_positions: with positions only, a margin and no equality of bounds the conditions hold. C115_fails: with velocities, a loop is proven for a trajectory without loop"
 },
 "C116": {
  "status": "partial",
  "note": "Exact count proved (degree = sum of the signs of the determinants, for any differentiable function) for sequences of calls on distinct subsets. Not checked by the code and false without them: the enclosures on the OUT boxes must exclude a zero (C116_separation_fails), the subset must not touch the border of the paving, where 0 is returned (C116_border, C116_border_fails). A second call on the same subset may hit the assertion of Paving::bisect (C116_twice_fails)."
 },
 "C117": {
  "status": "proved",
  "note": "For every plane, set of loops and positive precision; composed with C46: every loop of the trajectory is seen. The values 1 and 2 are exact at the samples only (C117_proven_fails). Called before any detection, the precision is 0 and the assertion of sample fails (C117_no_detection)."
 },
 "C118": {
  "status": "partial",
  "note": "Proved for slices on which the entries of the exponential stay between their first and last values, when no thick point smaller than the threshold is met (otherwise false: C118_small_fails, C87_rotation_fails). all_gates_defined does not test the first element (C118_gates_fails); envelopes are replaced, not intersected (C118_contracting_fails)."
 },
 "C119": {
  "status": "partial",
  "note": "CtcDeriv: the exact condition under which it ends (C119_deriv_defined), contraction without any condition, other tubes unchanged. Trajectories bounded by BOUNDED_INFINITY are kept (the others are lost, as in C18). CtcChain on one shared temporal domain: contraction without condition; solutions kept under the conditions of C87. Defect: without gates in the temporal domain of x (the default of create_tdomain) the contraction fails on an assertion (C119_gates_fails). Versions on tubes of boxes not modelled."
 },
 "C120": {
  "status": "proved",
  "note": "Stated without the following defects, shown with witnesses: one observation is generated for nb_obs = 0 (C120_none_fails); landmarks given by boxes are observed at the middle of the box, the observation does not contain the range of the other positions (C120_box_fails, trajectory version only); the difference of angles is not taken modulo a turn, a landmark exactly at the left of the robot is not seen (C120_turn_fails). Random choices are arbitrary parameters; IBEX functions are assumed to contain the exact values."
 },
 "C121": {
  "status": "proved",
  "note": "Exact arithmetic, restricted time domain equal to the whole line, both passes. The case where no trajectory exists is outside of the statement (the polygon is then made of NaN vertices in the code). C121_monotone: smaller tubes give smaller results. C121_forward_fails: the forward pass alone is not enough."
 },
 "C122": {
  "status": "partial",
  "note": "Constructors from a time domain: proved (exact sums of the time steps). Tube(x, f): for x not empty; from an empty x, of which only the slicing should be used, the tube is empty (C122_copy_fails). traj_eval_vector: right at the instants of the first component; the instants of the other components are lost (C122_instants_fails), and with a function of the time only the values of x are always written out of the input vector (C122_no_variable_fails)."
 },
 "C123": {
  "status": "partial",
  "note": "All but the hue of HSV maps: when the first hue exceeds the second one by more than 180 degrees the colors go round the circle the long way (`C123_hue_fails`: hues 350 to 10, at a quarter the hue is 175), so that `reverse()` of an HSV map is not the map in the other order (`C123_reverse_hsv_fails`); `C123_hue_partial` gives the hue in all the other cases. The hue of a gray is lost by a round trip (`C123_gray_fails`). Floats are replaced by an ordered field: a byte whose float quotient by 255, times 255, is rounded below itself is outside the model."
 },
 "C124": {
  "status": "partial",
  "note": "CtcDeriv, CtcStatic: full. CtcLinobs, CtcChain: C124_linobs_partial, the values are clipped over the whole temporal domain (C124_linobs_fails). CtcDelay, CtcPicard and CtcLohner never read the restricted domain (C124_delay_fails). CtcEval is not stated: it sets the value at its instant, then calls CtcDeriv."
 },
 "C125": {
  "status": "partial",
  "note": "full for CtcDelay, CtcPicard, CtcLohner, CtcChain, CtcLinobs and non-empty lists for CtcEval; CtcDeriv and CtcEval read outside of the vector for short lists; CtcDeriv may throw after some contractions; in a network the sizes given to CtcDeriv are not compared and wrong pairs are contracted; CtcStatic without time cannot be run in a network"
 },
 "C126": {
  "status": "partial",
  "note": "proved for all histories in which a tube with a tree of synthesis is not assigned, truncated, merged nor given polynomials, a tube with polynomials is not given a tree, and no tube is assigned to itself; each of these excluded calls is proved to fail from every reachable state (access to freed memory, wrong number of slices, or leak)"
 },
 "C127": {
  "status": "partial",
  "note": "domains: proved for all histories, with the exact condition of safety (no domain made by Domain() is copied or destroyed as it is) and the exact number of copies lost. Network: proved for all the histories that keep the slices of the tube; a reset of an intermediate tube, an assignment, a truncation or a merge followed by contract() is proved to read a freed slice from every reachable state; the slices made by a sampling are unknown to the contractors already added"
 },
 "C128": {
  "status": "partial",
  "note": "the exact set of the functions of the component is proved for all tubes: those with the values asked, that are also in the former values of the slices following the gates; equal to what is asked without gates, when the new values are included in the old ones, or when the operation is done twice; in general a gate can be emptied (C128_set_fails)"
 },
 "C129": {
  "status": "partial",
  "note": "proved for all networks: the label shown, and the exact condition under which the computation ends (each equality joins domains one of which has a label). It does not end after subvector() on a vector without name, or for the subvector of a subvector (C129_subvector_fails, C129_subsubvector_fails); two domains can get the same name (C129_distinct_fails); names with \"?\" are lost (C129_question_fails)"
 },
 "C130": {
  "status": "partial",
  "note": "proved: IN for every point and every continuous motion; OUT for every point that is not on an edge of the box and every state in the slices. OUT is wrong for points of an edge (C130_edge_fails); the limits left lose the first slice (C130_limits_fails, C130_limits_partial for the others); MAYBE is wrong: the point is on the line for one state and within range for another, not for one state (C130_maybe_fails, C130_maybe_partial)"
 },
 "C131": {
  "status": "partial",
  "note": "Kept points, smallest box, emptied boxes, ending and second contraction proved for images of less than 2^31 pixels. C131_overflow_fails: the count is an int of 32 bits, an image of 65536 x 65536 ones is emptied. C131_mapper_fails: GeoMapper accepts boxes one cell outside the image, for which its assertion fails. C131_rounding_fails: with rounded sums a box on the border makes the assertion fail."
 },
 "C132": {
  "status": "partial",
  "note": "Proved for texts between brackets without other semicolons, and for CAPD for functions with scalar arguments of which the last is not t (always so for a TFunction with scalar arguments). C132_scalar_fails: a scalar function without brackets loses its first and last characters. C132_nested_fails: a semicolon inside a component shifts the others. C132_component_fails: f[i] keeps the text of f, so its expr and expr(0) are wrong. C132_last_t_fails, C132_vector_fails: text with an empty name, names read out of the array."
 },
 "C133": {
  "status": "proved",
  "note": "The enclosure given by CAPD on an interval of time is a parameter. C133_initial_fails: the gates are the meets of the values on the slices around them, so the initial condition (and the value at the end) given by CAPD at an instant are lost."
 },
 "C134": {
  "status": "proved",
  "note": "C134_last_point_fails: with the additions of doubles the point at ub may be missing (step 2^53 on [0,1]): the evaluation at ub reads out of the map. C134_endless_fails: endless when the step is absorbed."
 },
 "C135": {
  "status": "proved",
  "note": "The gates are in the envelopes of their slices (reachable tubes) for the statement on trajectories. C135_empty_gate_fails: one empty gate gives a polygon without vertex although no slice is empty."
 },
 "C136": {
  "status": "partial",
  "note": "C136_trunc_fails: an interval with a finite bound beyond 99999 is shown as empty. C136_ratio_first_fails: the ratio is ignored on a new figure (the test is on the former view box). C136_unbounded_fails: leaves with an infinite bound are not shown at all."
 },
 "C137": {
  "status": "partial",
  "note": "CtcForAll and CtcExist of IBEX are parameters with their specification. C137_constructors_fails: the constructors from a SepCtcPair and from a Sep never set the contractors that separate() follows. C137_nb_var_fails: nb_var counts the parameters. Missing: the constructors from separators (unusable), the set vars of IBEX."
 },
 "C138": {
  "status": "partial",
  "note": "C138_pass_fails: on each slice of a tube, += moves the gates between slices twice, and the translated trajectory is lost; the slice by slice statement (C138_pass_partial) holds for operators whose repetition changes nothing (&=, |=)."
 },
 "C139": {
  "status": "partial",
  "note": "C139_self_fails: x = x replaces all components by default ones; proved for distinct vectors (C139_history_partial)."
 },
 "C140": {
  "status": "partial",
  "note": "C140_self_fails (x = x of a trajectory by function reads its deleted function), C140_sampled_fails (after sample, the assignment of a trajectory by function deletes the same function twice), C140_leak_fails (a trajectory by function assigned points loses its function); proved for all the programs without these three cases."
 },
 "C141": {
  "status": "proved",
  "note": "C141_number_fails: nb_obs is the number of instants, there may be more observations. Read, not modelled: load_data ignores its timestep argument (0.01 is used). As in C120, angles are not taken modulo a turn (C120_turn_fails)."
 },
 "C142": {
  "status": "proved",
  "note": "The answers of check_empty, ThickErode and ThickDilate are proved. C142_labels_fails: the labels of the leaves left by FastSivia are not right (a box is IN when its middle is; the boxes not tested are MAYBE), so that only the answer of check_empty can be used."
 },
 "C143": {
  "status": "proved",
  "note": "The quotients are proved where the divisor does not vanish. The trajectories are those defined by values (interpolated)."
 },
 "C144": {
  "status": "partial",
  "note": "put is proved for components on the temporal domain of the vector. C144_put_domain_fails: put accepts components on another temporal domain, and the vector has then no temporal domain: the assertions of the other functions fail."
 },
 "C145": {
  "status": "partial",
  "note": "For vectors, proved when no gate is empty. C145_vector_fails: with empty gates the differences are not numbers, no comparison holds and TubeVector::steepest_slice returns the null pointer."
 },
 "C146": {
  "status": "proved",
  "note": "The test of the translated set (ThickTranslateInPaving, by ThickPaving::Intersect) is a parameter, assumed right for all the translations of the box; C109 says for which questions Intersect is. The precision of the inner test is the constant 0.15 of the constructor, whatever the eps given."
 },
 "C147": {
  "status": "partial",
  "note": "Integrals, partial integrals, overlap (same sizes) and volume are proved as stated. integral(t1,t2) for t1 <= t2 only (C13_integral2_fails otherwise), primitive within the bound of CtcDeriv (C81_bound_fails), interpol except at a single instant where a slice starts (C74_interpol_fails), truncation strictly inside the new domain or at ends of slices (C11_truncate_fails). overlaps does not compare the sizes: C147_overlaps_sizes_fails."
 },
 "C148": {
  "status": "partial",
  "note": "Destruction, copies, move construction and the file written are proved. The assignment copies the pointers of a constant argument: the nodes are deleted twice (C148_assign_fails) and the former ones never (C148_assign_leak_fails). load writes the bounds over the pointers: no paving of dimension 1 or more is read back (C148_load_fails)."
 },
 "C149": {
  "status": "partial",
  "note": "Copy construction, flags and reset are proved. Assignment: the new tree is right, the former nodes are never deleted (C149_assign_leak_fails), x = x loses all the nodes (C149_assign_self_fails). The root of a copy is the root of the original, deleted with it (C149_root_fails)."
 },
 "C150": {
  "status": "partial",
  "note": "Proved at the sampled instants for every f and at all the instants for linear f; between the sampled instants f(x) may leave f(T) (C150_between_fails). root is proved for values which are not negative; for odd orders and a negative value the code gives a NaN although the root exists (C150_root_fails)."
 },
 "C151": {
  "status": "proved",
  "note": ""
 },
 "C152": {
  "status": "partial",
  "note": "the position must stay within BOUNDED_INFINITY (limit of CtcDeriv, C81); after a first call the file it wrote is returned whatever the time step is, and the requested temporal domain is never used: C152_cache_fails"
 },
 "C153": {
  "status": "partial",
  "note": "the requested time step is ignored, the slices last 0.01: C153_step_fails"
 },
 "C154": {
  "status": "proved",
  "note": "operands of the same sizes: they are not compared by the code, and the assertions of Eigen are disabled (codac2_eigen.h); exact arithmetic for the converse of the inflation"
 },
 "C155": {
  "status": "proved",
  "note": "the exactness of the projection needs a box with a point: a subvector of an empty box may have points"
 },
 "C156": {
  "status": "proved",
  "note": ""
 },
 "C157": {
  "status": "partial",
  "note": "center() holds the mean of the vertices when 1./n is exact; refuted for three vertices (C157_center_fails), the number 1./3 being rounded"
 },
 "C158": {
  "status": "partial",
  "note": "members lost when the bounds of the second box are below those of the first one (C158_corners_fails), when an upper bound exceeds 1e10 (C158_inter_fails); the flag of subset_ext is the opposite of its documentation (C158_flag_fails)"
 },
 "C159": {
  "status": "partial",
  "note": "IN is answered whatever y when the bounds of the two functions are overestimated and cross (C159_thick_fails); values which share a bound with y (C43_is_inside_fails)"
 },
 "C160": {
  "status": "proved",
  "note": "exact arithmetic"
 }
}