{
 "claims": [
  {
   "property": "C01",
   "status": "proved",
   "theorems": [
    "Wagyu.C01_no_input_no_output"
   ],
   "note": "every history of adds returning False and clears; all operations and fills"
  },
  {
   "property": "C02",
   "status": "proved",
   "theorems": [
    "Wagyu.C02_closed"
   ],
   "note": "end to end: every object and history"
  },
  {
   "property": "C03",
   "status": "proved",
   "theorems": [
    "Wagyu.C03_reverse",
    "Wagyu.C03_execute"
   ],
   "note": "for whole operations after any history of calls (C03_execute), and at build_result for every well-formed forest of rings"
  },
  {
   "property": "C04",
   "status": "proved",
   "theorems": [
    "Wagyu.C04_input_kept",
    "Wagyu.C04_only_the_geometry_counts",
    "Wagyu.C04_operations_do_not_interfere"
   ],
   "note": "every history of calls on a new object; Wagyu.bounds (C05) is not among the calls"
  },
  {
   "property": "C05",
   "status": "proved",
   "theorems": [
    "Wagyu.C05_empty",
    "Wagyu.C05_box_aliases_geometry",
    "Wagyu.C05_moves_point",
    "Wagyu.C05_corrupts_triangle",
    "Wagyu.C05_wrong_box"
   ],
   "note": "the contract is violated by the code: the theorems prove the aliasing, the mutation for every geometry of the stated kind, and witnesses"
  },
  {
   "property": "C06",
   "status": "proved",
   "theorems": [
    "Wagyu.C06_paired_scanlines",
    "Wagyu.C06_winding_counts",
    "Wagyu.C06_unit_steps",
    "Wagyu.C06_every_scanline"
   ],
   "note": "every state reached by any sequence of sweep events (Verif.Spec.Events); and at the end of every scanline of every operation on rings without flat tops, and on any rings as long as no bound has ended without its partner"
  },
  {
   "property": "C07",
   "status": "proved",
   "theorems": [
    "Wagyu.C07_paired_scanlines",
    "Wagyu.C07_output_on_boundary",
    "Wagyu.C07_every_scanline"
   ],
   "note": "every state reached by any sequence of sweep events (Verif.Spec.Events); and at the end of every scanline of every operation on rings without flat tops, and on any rings as long as no bound has ended without its partner"
  },
  {
   "property": "C08",
   "status": "proved",
   "theorems": [
    "Wagyu.C08_processed_once",
    "Wagyu.C08_no_order_error"
   ],
   "note": "for every permutation of the crossings found; hypotheses: distinct active bounds with non-nan current x; the order of the sweep is the one bubble_sort computes"
  },
  {
   "property": "C09",
   "status": "proved",
   "theorems": [
    "Wagyu.C09_result",
    "Wagyu.C09_terminates",
    "Wagyu.C09_exchanged_pairs",
    "Wagyu.C09_sweep"
   ],
   "note": ""
  },
  {
   "property": "C10",
   "status": "proved",
   "theorems": [
    "Wagyu.C10_sorted",
    "Wagyu.C10_sorted_of_returns"
   ],
   "note": ""
  },
  {
   "property": "C11",
   "status": "proved",
   "theorems": [
    "Wagyu.C11_sorted",
    "Wagyu.C11_strictly_sorted",
    "Wagyu.C11_adds_only",
    "Wagyu.C11_mem",
    "Wagyu.C11_next_is_largest"
   ],
   "note": ""
  },
  {
   "property": "C12",
   "status": "proved",
   "theorems": [
    "Wagyu.C12_hot_pixels_in_box"
   ],
   "note": "every history of calls on a new object; coordinates up to 2^52; the sweep ends for every large enough bound on the steps of the model"
  },
  {
   "property": "C13",
   "status": "proved",
   "theorems": [
    "Wagyu.C13_hot_pixel_sweep",
    "Wagyu.C13_ring_sweep"
   ],
   "note": "coordinates up to 2^52; the bound is on scanlines, the loops inside are proved to end"
  },
  {
   "property": "C14",
   "status": "proved",
   "theorems": [
    "Wagyu.C14_edges",
    "Wagyu.C14_few_points",
    "Wagyu.C14_on_sides",
    "Wagyu.C14_lines"
   ],
   "note": ""
  },
  {
   "property": "C15",
   "status": "proved",
   "theorems": [
    "Wagyu.C15_decomposes"
   ],
   "note": "for rings whose coordinate differences convert to a double, i.e. are at most 2^1023"
  },
  {
   "property": "C16",
   "status": "proved",
   "theorems": [
    "Wagyu.C16_add_linear_ring",
    "Wagyu.C16_add_polygon_reports",
    "Wagyu.C16_add_extends"
   ],
   "note": ""
  },
  {
   "property": "C17",
   "status": "proved",
   "theorems": [
    "Wagyu.C17_round_half_up",
    "Wagyu.C17_round_towards_min",
    "Wagyu.C17_round_towards_max",
    "Wagyu.C17_keeps_interval"
   ],
   "note": "finite doubles; the nearest-integer claims for every rational the rounding functions are given"
  },
  {
   "property": "C18",
   "status": "proved",
   "theorems": [
    "Wagyu.C18_almost_equal_iff",
    "Wagyu.C18_reflexive",
    "Wagyu.C18_symmetric",
    "Wagyu.C18_integers",
    "Wagyu.C18_trichotomy",
    "Wagyu.C18_less_than_sound",
    "Wagyu.C18_greater_than_sound",
    "Wagyu.C18_almost_zero_area",
    "Wagyu.C18_almost_zero_integer"
   ],
   "note": ""
  },
  {
   "property": "C19",
   "status": "proved",
   "theorems": [
    "Wagyu.C19_point_in_polygon",
    "Wagyu.C19_any_start"
   ],
   "note": "integer query points (inside_of also asks, when all vertices lie on the other ring, about float centroids, whose determinants are rounded: not covered)"
  },
  {
   "property": "C20",
   "status": "proved",
   "theorems": [
    "Wagyu.C20_stats",
    "Wagyu.C20_area_exact",
    "Wagyu.C20_area_sign",
    "Wagyu.C20_area_rotation",
    "Wagyu.C20_area_reverse",
    "Wagyu.C20_area_split",
    "Wagyu.C20_recalculate"
   ],
   "note": ""
  },
  {
   "property": "C21",
   "status": "proved",
   "theorems": [
    "Wagyu.C21_iterate",
    "Wagyu.C21_reverse",
    "Wagyu.C21_place_before",
    "Wagyu.C21_other_rings"
   ],
   "note": ""
  },
  {
   "property": "C22",
   "status": "proved",
   "theorems": [
    "Wagyu.C22_append"
   ],
   "note": "for every run of append_ring that returns"
  },
  {
   "property": "C23",
   "status": "proved",
   "theorems": [
    "Wagyu.C23_split",
    "Wagyu.C23_other_rings"
   ],
   "note": "the comparison of the areas is of the rounded ones, and exact up to 2^53"
  },
  {
   "property": "C24",
   "status": "proved",
   "theorems": [
    "Wagyu.C24_forest",
    "Wagyu.C24_execute"
   ],
   "note": "at build_result, and end to end for every operation that returns"
  },
  {
   "property": "C25",
   "status": "proved",
   "theorems": [
    "Wagyu.C25_paired_scanlines",
    "Wagyu.C25_two_ends",
    "Wagyu.C25_rings_exist",
    "Wagyu.C25_every_scanline"
   ],
   "note": "every state reached by any sequence of sweep events (Verif.Spec.Events); and at the end of every scanline of every operation on rings without flat tops, and on any rings as long as no bound has ended without its partner"
  },
  {
   "property": "C26",
   "status": "proved",
   "theorems": [
    "Wagyu.C26_both_or_neither",
    "Wagyu.C26_no_maxima_error",
    "Wagyu.C26_maxima_reached"
   ],
   "note": "every state reached by any sequence of sweep events; do_maxima with the partner to the right"
  },
  {
   "property": "C27",
   "status": "proved",
   "theorems": [
    "Wagyu.C27_clear_forgets"
   ],
   "note": "all later histories of API calls"
  },
  {
   "property": "C28",
   "status": "proved",
   "theorems": [
    "Wagyu.C28_insert_never_returns",
    "Wagyu.C28_append_never_returns",
    "Wagyu.C28_extend_never_returns",
    "Wagyu.C28_mutable_sequence_contract_fails"
   ],
   "note": "the contract is violated by the code: insert, append and extend never return; the theorems prove the violation for every list, value and amount of fuel"
  },
  {
   "property": "C29",
   "status": "proved",
   "theorems": [
    "Wagyu.C29_crossing_in_box",
    "Wagyu.C29_rounded_crossing_in_box",
    "Wagyu.C29_parallel_none",
    "Wagyu.C29_found_iff_segments_meet",
    "Wagyu.C29_accuracy"
   ],
   "note": "box containment for coordinates up to 2^52; exactness of the meet test and accuracy for coordinates up to 2^24"
  },
  {
   "property": "C30",
   "status": "proved",
   "theorems": [
    "Wagyu.C30_edge_normalised",
    "Wagyu.C30_horizontal_iff",
    "Wagyu.C30_reverse_horizontal",
    "Wagyu.C30_swap"
   ],
   "note": "horizontal iff equal ys under the stated no-overflow hypothesis on the slope"
  },
  {
   "property": "C31",
   "status": "proved",
   "theorems": [
    "Wagyu.C31_inside_of_refl",
    "Wagyu.C31_inside_of_trans",
    "Wagyu.C31_inside_of_antisymm",
    "Wagyu.C31_inside_of_iff"
   ],
   "note": ""
  },
  {
   "property": "C32",
   "status": "proved",
   "theorems": [
    "Wagyu.C32_rotates",
    "Wagyu.C32_out_of_range",
    "Wagyu.C32_is_rotation",
    "Wagyu.C32_restore"
   ],
   "note": ""
  },
  {
   "property": "C33",
   "status": "proved",
   "theorems": [
    "Wagyu.C33_points_slopes_equal_iff",
    "Wagyu.C33_edges_slopes_equal_iff",
    "Wagyu.C33_between_iff"
   ],
   "note": ""
  },
  {
   "property": "C34",
   "status": "proved",
   "theorems": [
    "Wagyu.C34_execute",
    "Wagyu.C34_reassign",
    "Wagyu.C34_refused",
    "Wagyu.C34_assign",
    "Wagyu.C34_replace",
    "Wagyu.C34_remove",
    "Wagyu.C34_remove_points"
   ],
   "note": "end to end, and for each tree operation"
  },
  {
   "property": "C35",
   "status": "proved",
   "theorems": [
    "Wagyu.C35_vertical_extent",
    "Wagyu.C35_topology_invents_no_vertex",
    "Wagyu.C35_vertices_come_from_the_sweep",
    "Wagyu.C35_horizontal_extent",
    "Wagyu.C35_horizontal_extent_no_flat_tops"
   ],
   "note": "every history of calls on a new object; coordinates up to 2^52 (C29 range); the horizontal extent under the guard that no active bound is left over by the sweep, unconditional without flat tops"
  },
  {
   "property": "C36",
   "status": "proved",
   "theorems": [
    "Wagyu.C36_sums_preserved",
    "Wagyu.C36_area_preserved",
    "Wagyu.C36_winding_preserved"
   ],
   "note": ""
  },
  {
   "property": "C37",
   "status": "proved",
   "theorems": [
    "Wagyu.C37_sums",
    "Wagyu.C37_winding"
   ],
   "note": "same range as C15"
  },
  {
   "property": "C38",
   "status": "proved",
   "theorems": [
    "Wagyu.C38_rings_are_closed"
   ],
   "note": "coordinates up to 2^52"
  },
  {
   "property": "C39",
   "status": "proved",
   "theorems": [
    "Wagyu.C39_operations_fail",
    "Wagyu.C39_outcome_unique",
    "Wagyu.C39_hole_without_parent",
    "Wagyu.C39_merges_fail",
    "Wagyu.C39_lines_fail"
   ],
   "note": "the contract is violated by the code: witness for every sufficiently large fuel; the outcome of an operation does not depend on the fuel"
  },
  {
   "property": "C40",
   "status": "proved",
   "theorems": [
    "Wagyu.C40_paired_scanlines",
    "Wagyu.C40_left_for_good",
    "Wagyu.C40_error_only_after",
    "Wagyu.C40_scanlines_are_events",
    "Wagyu.C40_only_crossing_error",
    "Wagyu.C40_no_horizontal_edges"
   ],
   "note": "every history with coordinates up to 2^52 and no stored bound ending in a horizontal edge (C39 shows the hypothesis is needed); and every history whatever the stored rings, for the scanlines before a bound ends without its partner (which is then left for good); the two sweeps, not topology correction"
  },
  {
   "property": "C41",
   "status": "proved",
   "theorems": [
    "Wagyu.C41_first_stages_end"
   ],
   "note": "every history with coordinates up to 2^52; the stages of correct_topology before the loop over chained rings"
  },
  {
   "property": "C42",
   "status": "proved",
   "theorems": [
    "Wagyu.C42_orientations"
   ],
   "note": "every history with coordinates up to 2^52"
  },
  {
   "property": "C43",
   "status": "proved",
   "theorems": [
    "Wagyu.C43_self_intersections"
   ],
   "note": "every history with coordinates up to 2^52; the first call of correct_self_intersections (with correct_tree False)"
  },
  {
   "property": "C44",
   "status": "proved",
   "theorems": [
    "Wagyu.C44_tree"
   ],
   "note": "every history with coordinates up to 2^52; containment as far as vertices tell (bounding box, one vertex inside or all vertices on the boundary)"
  },
  {
   "property": "C45",
   "status": "partial",
   "theorems": [
    "Wagyu.C45_last_stage_partial",
    "Wagyu.C45_links_stay_closed"
   ],
   "note": "for the runs in which the rings of every merged chain are distinct (checked by the run of lastStageWith mergeSimple, which then agrees with the code); without that proviso C45_links_stay_closed proves that no point is created or moved and that every ring that is left is a closed doubly linked list of points that were in rings; missing: that the rings of a chain are always distinct, and that the loop ends"
  },
  {
   "property": "C46",
   "status": "partial",
   "theorems": [
    "Wagyu.C46_result_rings_partial"
   ],
   "note": "for the runs in which the rings of every merged chain are distinct (see C45)"
  },
  {
   "property": "C47",
   "status": "proved",
   "theorems": [
    "Wagyu.C47_difference_wrong"
   ],
   "note": "the contract is violated: the theorem gives the witness and the wrong region"
  },
  {
   "property": "C48",
   "status": "proved",
   "theorems": [
    "Wagyu.C48_winding",
    "Wagyu.C48_split",
    "Wagyu.C48_region",
    "Wagyu.C48_output_boundary"
   ],
   "note": "every history with coordinates up to 2^52, every scanline; the statement about output rings as long as no bound has ended without its partner; the order of the active bounds around the point is a hypothesis (it is decided in floating point)"
  },
  {
   "property": "C49",
   "status": "proved",
   "theorems": [
    "Wagyu.C49_roles_do_not_matter",
    "Wagyu.C49_commutative"
   ],
   "note": "every history, any coordinates, all outcomes"
  },
  {
   "property": "C50",
   "status": "proved",
   "theorems": [
    "Wagyu.C50_empty_clip",
    "Wagyu.C50_empty_subject",
    "Wagyu.C50_nothing"
   ],
   "note": "every history, any coordinates; equality of all outcomes; emptiness of every result returned"
  },
  {
   "property": "C51",
   "status": "proved",
   "theorems": [
    "Wagyu.C51_provenance",
    "Wagyu.C51_spanning",
    "Wagyu.C51_spanning_no_flat_tops"
   ],
   "note": "every history with coordinates up to 2^52; all results returned; C51_spanning adds, under the guard of C35_horizontal_extent, that the edges span the rows of their vertices"
  },
  {
   "property": "C52",
   "status": "proved",
   "theorems": [
    "Wagyu.C52_axis_parallel"
   ],
   "note": "every history, axis-parallel rings with coordinates up to 2^24; all results returned"
  },
  {
   "property": "C53",
   "status": "proved",
   "theorems": [
    "Wagyu.C53_row_provenance",
    "Wagyu.C53_row_provenance_no_flat_tops",
    "Wagyu.C53_in_edge_box"
   ],
   "note": "every history with coordinates up to 2^52; all results of operations whose sweep leaves no active bound over, and unconditionally on rings without flat tops"
  },
  {
   "property": "C54",
   "status": "proved",
   "theorems": [
    "Wagyu.C54_near_side",
    "Wagyu.C54_near_side_no_flat_tops"
   ],
   "note": "every history with coordinates up to 2^k, k up to 52; the error bound is 1/2 + 2^k / 2^50 along each axis; all results of operations whose sweep leaves no active bound over, and unconditionally on rings without flat tops"
  },
  {
   "property": "C55",
   "status": "proved",
   "theorems": [
    "Wagyu.C55_ring_of_points",
    "Wagyu.C55_statistics",
    "Wagyu.C55_reverse",
    "Wagyu.C55_all_points"
   ],
   "note": "every list of points and every state; the size of the ring is within the step bound of the model"
  },
  {
   "property": "C56",
   "status": "proved",
   "theorems": [
    "Wagyu.C56_sorted_unique",
    "Wagyu.C56_local_minimum",
    "Wagyu.C56_node_key",
    "Wagyu.C56_point_node",
    "Wagyu.C56_ring",
    "Wagyu.C56_ring_keys",
    "Wagyu.C56_crossings_in_a_circle"
   ],
   "note": "for crossings the theorem proves the comparison inconsistent, with a witness"
  },
  {
   "property": "C57",
   "status": "proved",
   "theorems": [
    "Wagyu.C57_equal_objects",
    "Wagyu.C57_same_geometry",
    "Wagyu.C57_equal_but_different",
    "Wagyu.C57_operations_show"
   ],
   "note": "two theorems are witnesses of failures: equal objects with different results, operations visible to =="
  },
  {
   "property": "C58",
   "status": "proved",
   "theorems": [
    "Wagyu.C58_edges",
    "Wagyu.C58_same_history"
   ],
   "note": "the fuel bound of the statements is met by every fuel from 3 * length + 3 on"
  },
  {
   "property": "C59",
   "status": "proved",
   "theorems": [
    "Wagyu.C59_around",
    "Wagyu.C59_shape",
    "Wagyu.C59_nothing",
    "Wagyu.C59_answer"
   ],
   "note": "the fuel bound of the statements is met by every fuel from 3 * length + 3 on"
  },
  {
   "property": "C60",
   "status": "proved",
   "theorems": [
    "Wagyu.C60_minima"
   ],
   "note": "bounds are numbered in the model; the numbers of the added bounds may differ, which the theorem states by a renaming"
  },
  {
   "property": "C61",
   "status": "proved",
   "theorems": [
    "Wagyu.C61_affine",
    "Wagyu.C61_reversed",
    "Wagyu.C61_again"
   ],
   "note": "the fuel bound of the statements is met by every fuel from 3 * length + 3 on"
  },
  {
   "property": "C62",
   "status": "proved",
   "theorems": [
    "Wagyu.C62_ring",
    "Wagyu.C62_polygon",
    "Wagyu.C62_history",
    "Wagyu.C62_line"
   ],
   "note": "the fuel bound of the statements is met by every fuel from 3 * length + 3 on"
  },
  {
   "property": "C63",
   "status": "proved",
   "theorems": [
    "Wagyu.C63_ring",
    "Wagyu.C63_same_history",
    "Wagyu.C63_convex"
   ],
   "note": "the fuel bound of the statements is met by every fuel from 3 * length + 3 on"
  },
  {
   "property": "C64",
   "status": "proved",
   "theorems": [
    "Wagyu.C64_polygon",
    "Wagyu.C64_grouping"
   ],
   "note": "the fuel bound of the statements is met by every fuel from 3 * length + 3 on"
  }
 ]
}