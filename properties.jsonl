{"id": "C01", "title": "No input, no output", "statement": "On a Wagyu object that holds no rings (freshly created, or after clear(), or to which only degenerate rings were added so that every add call returned False), intersect, unite, subtract and symmetric_subtract return the empty Multipolygon and raise nothing.", "quantifier": "every operation kind, every pair of fill kinds, both values of reverse_output, every history of adds and clears that leaves the object empty", "why_tests_cant": "the set of histories that leave the object empty is unbounded", "anchors": ["wagyu/wagyu.py:Wagyu.execute", "wagyu/wagyu.py:Wagyu.clear", "wagyu/local_minimum.py:LocalMinimumList.add_linear_ring"]}
{"id": "C02", "title": "Output rings are closed", "statement": "Every linear ring of every Multipolygon returned by intersect/unite/subtract/symmetric_subtract has at least two points and its first point equals its last point.", "quantifier": "every Wagyu object (any rings added, any previous executions), operation and fill kinds for which the call returns", "why_tests_cant": "ranges over all input geometries and all histories", "anchors": ["wagyu/polygon.py:point_node_to_linear_ring", "wagyu/polygon.py:rings_to_polygons", "wagyu/ring_manager.py:RingManager.build_result"]}
{"id": "C03", "title": "reverse_output only reverses", "statement": "After the same calls, an operation on an object created with reverse_output=True has the same outcome as on one created with reverse_output=False (the same exception, or a result), except that the points of every linear ring of the result are listed in the opposite order; the number, order and nesting of polygons and rings are the same.", "quantifier": "every history of calls, every operation and fill kinds; and every forest of output rings whose point nodes form circular doubly linked lists, of any size and nesting depth", "why_tests_cant": "all histories, all sizes and nestings of output", "anchors": ["wagyu/wagyu.py:Wagyu.execute", "wagyu/polygon.py:point_node_to_linear_ring", "wagyu/polygon.py:rings_to_polygons", "wagyu/point_node.py:PointNode.__iter__", "wagyu/point_node.py:PointNode.__reversed__"]}
{"id": "C04", "title": "An operation does not depend on earlier operations", "statement": "Calling intersect/unite/subtract/symmetric_subtract any number of times on a Wagyu object leaves the stored input geometry as it was and does not change the value (or exception) later calls produce: the result is a function of the rings added, the operation, the fill kinds and reverse_output only.", "quantifier": "every Wagyu object, every history of operations executed on it before", "why_tests_cant": "histories of operations are unbounded; the bounds carry mutable run-time fields between runs", "anchors": ["wagyu/wagyu.py:Wagyu.execute", "wagyu/local_minimum.py:LocalMinimum.initialize", "wagyu/ring_manager.py:RingManager.execute_vatti", "wagyu/ring_manager.py:RingManager.build_hot_pixels"]}
{"id": "C05", "title": "Reading bounds is not an observation", "statement": "A user relies on reading Wagyu.bounds to return the bounding box and to change nothing. At this commit that holds only for an object without geometry: otherwise the corners of the returned box are two point objects of the stored geometry (the top of the first and the bottom of the last edge of the first bound), which are the caller's points, and computing the box moves them (no others): whenever the first edge leans to the right its top is moved; there are triangles whose vertex is moved and triangles whose returned box is wrong.", "quantifier": "every geometry held by a Wagyu object, every heap of points", "why_tests_cant": "aliasing between the caller's points, the stored edges and the returned box is a heap property for all inputs", "anchors": ["wagyu/wagyu.py:Wagyu.bounds", "wagyu/edge.py:Edge.__init__"]}
{"id": "C06", "title": "Winding bookkeeping equals true winding numbers", "statement": "At every moment of the sweep, for every active bound, winding_count and opposite_winding_count are determined by the true winding numbers of the subject and clip polygons immediately left and right of the bound (sums of winding deltas of the bounds to its left): for a non-even-odd fill the winding count is whichever of the two adjacent winding numbers of its own polygon is larger in absolute value, and the opposite count is the winding number of the other polygon (its parity when that polygon is filled even-odd).", "quantifier": "every sequence of sweep events (insertion of a local minimum's two bounds anywhere, crossing of two adjacent bounds, removal of an adjacent pair with opposite deltas) of any length, every pair of fill kinds", "why_tests_cant": "event histories are unbounded", "anchors": ["wagyu/bound.py:set_winding_count", "wagyu/ring_manager.py:RingManager.intersect_bounds", "wagyu/ring_manager.py:RingManager.insert_lm_left_and_right_bound"]}
{"id": "C07", "title": "Bounds carry output exactly on the boundary of the boolean result", "statement": "At every moment of the sweep a bound is attached to an output ring if and only if the boolean combination (intersection, union, difference, symmetric difference) of the two filled polygons differs between the regions immediately left and right of the bound.", "quantifier": "every operation, every pair of fill kinds, every sequence of sweep events of any length", "why_tests_cant": "event histories and winding numbers are unbounded", "anchors": ["wagyu/bound.py:Bound.is_contributing", "wagyu/ring_manager.py:RingManager.intersect_bounds", "wagyu/ring_manager.py:RingManager.add_local_minimum_point", "wagyu/ring_manager.py:RingManager.add_local_maximum_point"]}
{"id": "C08", "title": "Crossings are always processed in a feasible order", "statement": "For the crossings found on one scanbeam, processing them in any order produced by sorting, with the adjacency correction, never raises 'Could not properly correct intersection order' and never indexes out of range; each found crossing is processed exactly once, always between two bounds that are adjacent at that moment with the recorded first bound on the left, and afterwards the active bounds are in the order computed when the crossings were found.", "quantifier": "every list of distinct active bounds, every assignment of their current x and slopes, every permutation of the crossings", "why_tests_cant": "all permutations of unboundedly many crossings", "anchors": ["wagyu/ring_manager.py:RingManager.process_intersect_list", "wagyu/ring_manager.py:RingManager.process_intersections", "wagyu/intersect_node.py:build_intersect_list", "wagyu/bubble_sort.py:bubble_sort"]}
{"id": "C09", "title": "bubble_sort is a terminating adjacent-swap sort", "statement": "bubble_sort leaves its input list unchanged, returns a permutation of it in which no adjacent pair is rejected by the comparator, calls on_swap exactly once per exchanged pair (left element first), and terminates whenever every rejected pair is strictly decreasing in some linear order; with the sweep's comparator each pair of bounds is exchanged at most once, and a pair is exchanged iff its order differs between input and output.", "quantifier": "every list and every such comparator", "why_tests_cant": "termination and permutation for all lengths", "anchors": ["wagyu/bubble_sort.py:bubble_sort", "wagyu/bound.py:intersection_compare"]}
{"id": "C10", "title": "Hot pixels end up sorted without duplicates", "statement": "After the hot pixels are sorted they are ordered strictly by descending y and then ascending x, contain no duplicate, and are exactly the set of points recorded; the sort terminates.", "quantifier": "every list of points of any length", "why_tests_cant": "an in-place quicksort with an explicit stack must be right for every length and arrangement", "anchors": ["wagyu/utils.py:quicksort", "wagyu/ring_manager.py:RingManager.sort_hot_pixels", "wagyu/ring_manager.py:hot_pixels_compare"]}
{"id": "C11", "title": "The scanbeam queue stays sorted and duplicate-free under insertion", "statement": "Inserting a y coordinate into the sorted scanbeam queue keeps it sorted, adds that coordinate and nothing else, and adds nothing when it is already there, so the next scanline taken is always the largest pending y.", "quantifier": "every sorted queue and coordinate", "why_tests_cant": "all sizes", "anchors": ["wagyu/utils.py:insort_unique", "wagyu/bound.py:Bound.to_next_edge", "wagyu/ring_manager.py:RingManager.insert_lm_left_and_right_bound"]}
{"id": "C12", "title": "Hot pixels lie within the input's extent", "statement": "Every hot pixel recorded for the added rings lies within the bounding box of the points of those rings.", "quantifier": "every Wagyu object built by adding rings with integer coordinates", "why_tests_cant": "all geometries; depends on rounding of every crossing", "anchors": ["wagyu/ring_manager.py:RingManager.build_hot_pixels", "wagyu/edge.py:Edge.__and__", "wagyu/edge.py:Edge.get_current_x", "wagyu/point.py:Point.round"]}
{"id": "C13", "title": "The sweeps terminate", "statement": "Both plane sweeps (recording hot pixels, building rings) finish after a number of scanlines bounded by the number of input edges, visiting scanlines in non-increasing y, for every set of added rings with coordinates up to 2**52; every loop inside a sweep finishes, too.", "quantifier": "every Wagyu object built by adding rings", "why_tests_cant": "termination", "anchors": ["wagyu/ring_manager.py:RingManager.build_hot_pixels", "wagyu/ring_manager.py:RingManager.execute_vatti"]}
{"id": "C14", "title": "Edge extraction keeps only genuine edges", "statement": "Extracting the edges of a linear ring never fails; the edges are built only from the ring's own points, no edge is degenerate (its end points differ), there are none or at least three of them (none for fewer than three points), they form a closed chain, consecutive edges sharing an end point, and no two cyclically consecutive edges are parallel. Every point of an edge lies on one of the sides of the ring.", "quantifier": "every list of points", "why_tests_cant": "all lists, including repeated and collinear points and spikes", "anchors": ["wagyu/linear_ring.py:LinearRing.edges"]}
{"id": "C15", "title": "Local minima decompose the ring into paired monotone bounds", "statement": "add_linear_ring never raises; it returns False and adds nothing when the ring has no edges. When it accepts a ring, the added local minima use every edge of the ring exactly once (up to reversing horizontals); each bound is a chain of edges each starting where the previous ended and never going down; both bounds of a minimum start at the same point whose y is the recorded one; the two bounds have opposite winding deltas and opposite sides; and the bounds are matched in pairs at the maxima, the partner of the partner being the bound itself and having the opposite winding delta and the same polygon kind.", "quantifier": "every accepted ring", "why_tests_cant": "all rings", "anchors": ["wagyu/local_minimum.py:LocalMinimumList.add_linear_ring", "wagyu/bound.py:create_bound_towards_minimum", "wagyu/bound.py:create_bound_towards_maximum", "wagyu/bound.py:Bound.fix_horizontals", "wagyu/bound.py:Bound.move_horizontals"]}
{"id": "C16", "title": "add_polygon reports exactly whether anything was added", "statement": "add_polygon adds the rings in order and returns True iff at least one of them added a local minimum, i.e. iff the stored geometry grew; a False result means the object is unchanged. Existing geometry is never altered by adding.", "quantifier": "every polygon with any number of rings, every Wagyu state", "why_tests_cant": "all ring lists and states", "anchors": ["wagyu/wagyu.py:Wagyu.add_polygon", "wagyu/wagyu.py:Wagyu.add_linear_ring", "wagyu/local_minimum.py:LocalMinimumList.add_linear_ring"]}
{"id": "C17", "title": "Rounding goes to a nearest integer", "statement": "round_half_up returns a nearest integer, ties away from zero; round_towards_min/max return an integer neighbouring the value and differ from the nearest one only when the value is within 4 ulps of a half-integer, where they go down/up; all three return integers unchanged and keep the value inside any integer interval that contains it.", "quantifier": "every finite double", "why_tests_cant": "2^64 doubles", "anchors": ["wagyu/utils.py:round_half_up", "wagyu/utils.py:round_towards_min", "wagyu/utils.py:round_towards_max"]}
{"id": "C18", "title": "Approximate float equality is exactly a 4-ulp test", "statement": "are_floats_almost_equal(x, y) holds iff at most four representable doubles have to be stepped over to get from x to y (counting +0 and -0 as one); it is reflexive and symmetric, never holds for integers that differ with magnitude up to 2^50, and the derived less/greater tests are consistent with it and mutually exclusive. is_float_almost_zero(n) for an integer n holds iff n = 0.", "quantifier": "every pair of finite doubles", "why_tests_cant": "2^128 pairs", "anchors": ["wagyu/utils.py:are_floats_almost_equal", "wagyu/utils.py:_double_to_biased", "wagyu/utils.py:are_floats_less_than", "wagyu/utils.py:are_floats_greater_than", "wagyu/utils.py:is_float_almost_zero"]}
{"id": "C19", "title": "Point-in-polygon classification is right", "statement": "For an integer point and a ring of integer points, the classification is ON iff the point lies on one of the ring's segments; otherwise it is INSIDE iff a horizontal ray crosses the ring an odd number of times; the answer does not depend on the node from which the ring is traversed.", "quantifier": "every ring of any length, every point", "why_tests_cant": "all rings and points", "anchors": ["wagyu/point_node.py:point_in_polygon"]}
{"id": "C20", "title": "Ring statistics are the shoelace area, count and tight box", "statement": "For a ring of point nodes the reported size is the number of nodes, the box is the tight bounding box of the points, and the area is the shoelace signed area: independent of the starting node, negated by reversing the ring, and additive when a ring is split in two at two nodes at the same location.", "quantifier": "every ring of any length", "why_tests_cant": "all sizes", "anchors": ["wagyu/point_node.py:PointNode.stats", "wagyu/point_node.py:PointNode.reverse", "wagyu/ring_manager.py:RingManager.correct_self_intersection"]}
{"id": "C21", "title": "Linked rings behave like cyclic lists", "statement": "Iterating a ring yields each of its nodes once in order, place_before inserts exactly one node just before another, reverse reverses the cyclic order of exactly that ring, and none of them disturbs any other ring.", "quantifier": "every heap of point nodes, every ring length", "why_tests_cant": "pointer structures of all sizes", "anchors": ["wagyu/point_node.py:PointNode.__iter__", "wagyu/point_node.py:PointNode.place_before", "wagyu/point_node.py:PointNode.reverse"]}
{"id": "C22", "title": "Joining two open rings keeps all points in order", "statement": "When two open output rings meet at a local maximum the joined ring contains exactly the points of both, each in its original order or reversed as a block according to the sides of the two bounds, and the removed ring keeps no points.", "quantifier": "every pair of rings of any length, all four side combinations", "why_tests_cant": "all sizes", "anchors": ["wagyu/ring_manager.py:RingManager.append_ring"]}
{"id": "C23", "title": "Splitting at a repeated point partitions the ring", "statement": "Correcting a self-intersection at two nodes of one ring yields two rings whose node sequences partition the original cyclic sequence, the one with the larger absolute area staying the original ring.", "quantifier": "every ring of any length and every two distinct nodes of it", "why_tests_cant": "all sizes", "anchors": ["wagyu/ring_manager.py:RingManager.correct_self_intersection"]}
{"id": "C24", "title": "Output polygons enumerate the ring forest exactly once", "statement": "Building the result emits one polygon for every ring at even depth, with that ring first as exterior and its direct children as holes in order, and every ring of the forest appears in the output exactly once.", "quantifier": "every forest of rings of any size and depth", "why_tests_cant": "all trees", "anchors": ["wagyu/polygon.py:rings_to_polygons", "wagyu/polygon.py:Multipolygon.from_rings"]}
{"id": "C25", "title": "Every open output ring has exactly two ends", "statement": "At every moment of the sweep each output ring attached to any active bound is attached to exactly two, one as LEFT and one as RIGHT side.", "quantifier": "every sequence of sweep events of any length, every operation and fill kinds", "why_tests_cant": "event histories are unbounded", "anchors": ["wagyu/ring_manager.py:RingManager.add_local_minimum_point", "wagyu/ring_manager.py:RingManager.add_local_maximum_point", "wagyu/ring_manager.py:RingManager.append_ring", "wagyu/ring_manager.py:RingManager.intersect_bounds"]}
{"id": "C26", "title": "Maxima never find half an output ring", "statement": "When an adjacent pair of bounds with opposite winding deltas of the same polygon ends at a maximum, either both or neither carries an output ring, so 'DoMaxima error' is not raised for such a pair.", "quantifier": "every sequence of sweep events leading to the maximum", "why_tests_cant": "event histories are unbounded", "anchors": ["wagyu/ring_manager.py:RingManager.do_maxima"]}
{"id": "C27", "title": "clear forgets everything", "statement": "After clear() the object is equal to a fresh one with the same reverse_output and every later history produces the same results as on a fresh object.", "quantifier": "every history before and after the clear", "why_tests_cant": "unbounded histories", "anchors": ["wagyu/wagyu.py:Wagyu.clear", "wagyu/local_minimum.py:LocalMinimumList"]}
{"id": "C28", "title": "LocalMinimumList violates the MutableSequence contract", "statement": "LocalMinimumList is declared a MutableSequence, so a user relies on insert(index, value), append and extend to return after storing the value. At this commit they never do: insert calls itself with the same arguments, so for every list, index and value insert and append never return, and extend never returns for a non-empty iterable; the contract fails.", "quantifier": "every list, index and value, every recursion depth", "why_tests_cant": "non-termination cannot be observed by a finite test; here every call recurses without end", "anchors": ["wagyu/local_minimum.py:LocalMinimumList.insert"]}
{"id": "C29", "title": "Crossing points stay inside both edges' extents", "statement": "When the crossing of two edges is defined, its coordinates (and their rounding) lie within the bounding box of the first edge; in exact arithmetic it lies on both edges, and two edges have no crossing when they are parallel.", "quantifier": "every pair of edges with integer end points", "why_tests_cant": "all coordinates; rounding", "anchors": ["wagyu/edge.py:Edge.__and__", "wagyu/point.py:Point.round"]}
{"id": "C30", "title": "Edges are normalised", "statement": "An edge built from two points has its bottom at least as low (y not smaller) as its top, the same two end points, and is horizontal iff the two y are equal; reversing a horizontal edge swaps its ends and doing so twice restores it; building from swapped points gives an equal edge when it is not horizontal.", "quantifier": "every pair of points", "why_tests_cant": "all coordinates", "anchors": ["wagyu/edge.py:Edge.__init__", "wagyu/edge.py:Edge.reverse_horizontal", "wagyu/edge.py:Edge.is_horizontal"]}
{"id": "C31", "title": "Box containment is a partial order", "statement": "Box.inside_of is reflexive, transitive and antisymmetric and holds iff every point of the first box is a point of the second (for non-empty boxes).", "quantifier": "every box", "why_tests_cant": "all coordinates", "anchors": ["wagyu/box.py:Box.inside_of"]}
{"id": "C32", "title": "rotate_sequence is a cyclic shift", "statement": "rotate_sequence returns a cyclic rotation of its argument for every index, positive, negative or out of range, and rotating by k then -k restores the sequence.", "quantifier": "every sequence and index", "why_tests_cant": "all lengths and indices", "anchors": ["wagyu/utils.py:rotate_sequence"]}
{"id": "C33", "title": "Edges that are collinear are recognised exactly", "statement": "are_points_slopes_equal holds iff the three points are collinear, are_edges_slopes_equal iff the edges are parallel; for collinear points is_point_between_others holds iff the middle one lies strictly between.", "quantifier": "all integer points", "why_tests_cant": "all coordinates", "anchors": ["wagyu/point.py:are_points_slopes_equal", "wagyu/edge.py:are_edges_slopes_equal", "wagyu/point.py:is_point_between_others"]}
{"id": "C34", "title": "The ring forest stays consistent", "statement": "Re-parenting, replacing and removing rings keep the forest consistent: a ring is listed exactly once among the children of its parent (or the top level) and nowhere else, and re-parenting a ring under one with the same orientation is refused.", "quantifier": "every forest and every sequence of tree operations", "why_tests_cant": "unbounded histories of tree edits", "anchors": ["wagyu/ring_manager.py:RingManager.reassign_as_child", "wagyu/ring_manager.py:RingManager.assign_as_child", "wagyu/ring_manager.py:RingManager.assign_as_sibling", "wagyu/ring_manager.py:RingManager.replace_ring", "wagyu/ring_manager.py:RingManager.remove_ring", "wagyu/ring.py:set_to_children", "wagyu/ring.py:remove_from_children"]}
{"id": "C35", "title": "Output vertices come from the sweep, within the input's extent", "statement": "Every vertex of every result has a y coordinate between the smallest and largest y of the added rings; topology correction invents no vertex. Every vertex has an x coordinate between the smallest and largest x of the added rings, provided the sweep leaves no active bound behind, which is always so when every local maximum of the rings is a single point.", "quantifier": "every Wagyu object built by adding rings, every operation and fill kinds for which the call returns", "why_tests_cant": "all geometries", "anchors": ["wagyu/ring_manager.py:RingManager.create_point_node", "wagyu/ring_manager.py:RingManager.correct_topology"]}
{"id": "C36", "title": "Edge extraction keeps signed area and winding numbers", "statement": "Dropping repeated points, collinear points and spikes while extracting the edges of a linear ring changes neither the signed area enclosed by the ring nor its winding number around any integer point (nor any other quantity of directed segments that adds up along lines); a ring without edges has area zero and winding number zero everywhere.", "quantifier": "every list of points, every point of the plane", "why_tests_cant": "all rings, including self-overlapping ones", "anchors": ["wagyu/linear_ring.py:LinearRing.edges"]}
{"id": "C37", "title": "The stored bounds represent the ring's winding numbers", "statement": "After add_linear_ring, for every integer point of the plane the sum over the newly stored bounds of the winding delta times the signed number of crossings of the ray to the right of the point with that bound equals the winding number of the given ring around the point; the same holds for twice the signed area and for every other quantity of directed segments that adds up along lines.", "quantifier": "every ring, every point of the plane, every prior content of the list", "why_tests_cant": "all rings, including self-overlapping ones with horizontal runs", "anchors": ["wagyu/local_minimum.py:LocalMinimumList.add_linear_ring", "wagyu/bound.py:create_bound_towards_minimum", "wagyu/bound.py:create_bound_towards_maximum"]}
{"id": "C38", "title": "The sweep builds closed rings", "statement": "When the two sweeps of an operation end without an exception, every point they created belongs to exactly one ring, the points of every ring form a closed circular doubly linked list starting at the ring's recorded node, every point records that ring, and no ring is its own ancestor.", "quantifier": "every history of calls with coordinates up to 2**52, every operation and pair of fill rules", "why_tests_cant": "all inputs; heap shape after arbitrarily many ring splits and joins", "anchors": ["wagyu/ring_manager.py:RingManager.execute_vatti", "wagyu/ring_manager.py:RingManager.append_ring", "wagyu/ring_manager.py:RingManager.add_local_maximum_point", "wagyu/ring_manager.py:RingManager.create_point_node"]}
{"id": "C39", "title": "Operations on accepted polygons can raise", "statement": "A user relies on intersect, unite and subtract returning a multipolygon for polygons that add_linear_ring accepted. At this commit they do not always: for two convex quadrilaterals with coordinates below 100 whose sides overlap, all three raise RuntimeError('DoMaxima error'), however long they run; the contract fails. The outcome of an operation (value, exception, object afterwards) is unique: it does not depend on the step bounds of the model.", "quantifier": "two fixed quadrilaterals, every sufficiently large step bound; for uniqueness every object, operation, fill rules and step bounds", "why_tests_cant": "that an exception is an effect of the algorithm and not of a bound needs every bound; the tests of the project never met this input", "anchors": ["wagyu/ring_manager.py:RingManager.do_maxima", "wagyu/ring_manager.py:RingManager.process_horizontal_left_to_right", "wagyu/wagyu.py:Wagyu.execute"]}
{"id": "C40", "title": "The sweep of a whole operation is a sequence of events; only one RuntimeError is possible", "statement": "After any history of calls on an object whose stored rings have no flat top (no monotone bound ends in a horizontal edge; in particular whenever LinearRing.edges of the held rings has no horizontal edge), the sweep of every operation only inserts local minima, crosses adjacent bounds and ends adjacent partners together: at the end of every scanline winding counts are right (C06), bounds carry output exactly on the boundary of the boolean result (C07) and every open ring has two ends (C25). Neither 'DoMaxima error' nor 'Could not properly correct intersection order' is raised: the only RuntimeError the sweeps may raise is 'Trying to find intersection of lines that do not intersect'. (C39 shows that with flat tops DoMaxima error does occur.) Whatever the stored rings (flat tops included): if at the end of a later scanline no bound has ended without its partner, in particular if the sweep ends with no bound left active, every scanline was right in this sense; otherwise a bound with a flat top ended without its partner, the partner is left for good, and only after that can another RuntimeError be raised.", "quantifier": "every history of calls with coordinates up to 2^52 in absolute value, every operation, fill kinds and scanline; without flat tops unconditionally, with flat tops until a bound ends without its partner", "why_tests_cant": "unboundedly many histories, scanlines and crossings", "anchors": ["wagyu/ring_manager.py:RingManager.execute_vatti", "wagyu/ring_manager.py:RingManager.process_edges_at_top_of_scanbeam", "wagyu/ring_manager.py:RingManager.process_horizontals", "wagyu/ring_manager.py:RingManager.do_maxima", "wagyu/ring_manager.py:RingManager.insert_local_minima_into_abl", "wagyu/ring_manager.py:RingManager.process_intersections"]}
{"id": "C41", "title": "The first stages of the topology correction end", "statement": "After any history of calls, once the sweeps of an operation have ended, correct_orientations, correct_collinear_edges, correct_self_intersections and correct_tree end: no endless loop, no AttributeError on a missing link, no RuntimeError other than 'Could not find a point within the polygon to test' and 'Could not properly place hole to a parent'. Afterwards the remaining points are distributed over closed rings, none has been created and none has moved.", "quantifier": "every history of calls with coordinates up to 2^52 in absolute value, every operation and fill kinds", "why_tests_cant": "unboundedly many histories and ring configurations; an endless loop is not observable by a test", "anchors": ["wagyu/ring_manager.py:RingManager.correct_topology", "wagyu/ring_manager.py:RingManager.correct_collinear_edges", "wagyu/ring_manager.py:RingManager.correct_self_intersections", "wagyu/ring_manager.py:RingManager.correct_tree"]}
{"id": "C42", "title": "Orientations follow the nesting depth", "statement": "After correct_orientations every ring has at least three points and, unless its area is zero, is positively oriented iff it has an even number of ancestors; rings with fewer points are removed, all others are unchanged or exactly reversed.", "quantifier": "every history of calls with coordinates up to 2^52 in absolute value, every operation and fill kinds, every ring", "why_tests_cant": "unboundedly many rings and depths", "anchors": ["wagyu/ring_manager.py:RingManager.correct_orientations", "wagyu/point_node.py:PointNode.reverse"]}
{"id": "C43", "title": "Rings are split at repeated points without loss", "statement": "After correct_self_intersections no ring visits a position twice, every point is still in a ring, and the rings have in total exactly the same directed edges as before: the total signed area and all winding numbers are unchanged.", "quantifier": "every history of calls with coordinates up to 2^52 in absolute value, every operation and fill kinds, every ring and position", "why_tests_cant": "unboundedly many rings with arbitrarily many repeated points", "anchors": ["wagyu/ring_manager.py:RingManager.correct_self_intersections", "wagyu/ring_manager.py:RingManager.correct_ring_self_intersections", "wagyu/ring_manager.py:RingManager.correct_repeated_points"]}
{"id": "C44", "title": "The tree of rings is sound", "statement": "When correct_tree returns, only rings without area have been removed; every remaining ring has an area, a ring at the top level is positively oriented, every other ring has the opposite orientation of its parent and lies in it as far as its vertices tell, and no ring is its own ancestor.", "quantifier": "every history of calls with coordinates up to 2^52 in absolute value, every operation and fill kinds, every ring", "why_tests_cant": "unboundedly many rings; wrong parents show only in the polygons of particular inputs", "anchors": ["wagyu/ring_manager.py:RingManager.correct_tree", "wagyu/ring_manager.py:RingManager.reassign_as_child", "wagyu/ring.py:Ring.inside_of", "wagyu/point_node.py:inside_or_outside_special"]}
{"id": "C45", "title": "Merging touching rings loses nothing and leaves no repeated vertex", "statement": "When the last stage of the topology correction (correct_chained_rings and the second correct_self_intersections, repeated until nothing changes) returns, the points are distributed over closed rings, no ring visits a position twice, the same points as before are in rings, none is created or moved, and the rings have the same directed edges in total as before, so the same total signed area and winding numbers.", "quantifier": "every history of calls with coordinates up to 2^52 in absolute value, every operation and fill kinds, every number of iterations of the loop", "why_tests_cant": "unboundedly many rings, chains of arbitrary length, and the pointers of all rings of a chain are exchanged at once", "anchors": ["wagyu/ring_manager.py:RingManager.correct_chained_rings", "wagyu/ring_manager.py:RingManager.process_single_intersection", "wagyu/ring_manager.py:RingManager.find_intersect_loop", "wagyu/ring_manager.py:RingManager.correct_self_intersections", "wagyu/ring_manager.py:RingManager.correct_topology"]}
{"id": "C46", "title": "The rings of the result visit no vertex twice", "statement": "When an operation returns, every ring of every polygon of the result is closed (the last vertex is the first) and its vertices, except the last, are pairwise distinct.", "quantifier": "every history of calls with coordinates up to 2^52 in absolute value, every operation and fill kinds, every ring of the result", "why_tests_cant": "unboundedly many inputs; repeated vertices appear only for particular coincidences of rounded crossings", "anchors": ["wagyu/wagyu.py:Wagyu.execute", "wagyu/ring_manager.py:RingManager.correct_topology", "wagyu/ring_manager.py:RingManager.build_result"]}
{"id": "C47", "title": "An operation can return the wrong region", "statement": "A user relies on the returned multipolygon covering the symmetric difference of subject and clip. At this commit, for two convex quadrilaterals with coordinates below 100 whose sides overlap, symmetric_subtract returns without an exception, however long it may run, two polygons both of which cover every integer point strictly inside both quadrilaterals, points that do not belong to the symmetric difference; the contract fails.", "quantifier": "two fixed quadrilaterals, every integer point strictly inside both, every sufficiently large step bound", "why_tests_cant": "a wrong region raises nothing; the tests of the project never met this input", "anchors": ["wagyu/ring_manager.py:RingManager.process_horizontal_left_to_right", "wagyu/ring_manager.py:RingManager.execute_vatti", "wagyu/wagyu.py:Wagyu.symmetric_subtract"]}
{"id": "C48", "title": "Inside and outside in the sweep are those of the plane", "statement": "At the end of every scanline of an operation, for every point of the plane strictly between this scanline and the next: the winding number of the held subject rings around it, and that of the clip rings, is determined by the current edges of the active bounds alone; if the edges of the first active bounds pass left of the point and the others right of it, it is the sum of the winding deltas of the first ones, so that the sweep takes the place for inside the result exactly if the point belongs to the boolean combination of the two filled polygons. As long as no bound has ended without its partner, a bound carries an output ring exactly if the points left and right of its edge differ in belonging to the combination.", "quantifier": "every history of calls with coordinates up to 2^52 in absolute value, every operation and fill kinds, every scanline, every point with rational coordinates between two scanlines", "why_tests_cant": "unboundedly many rings, scanlines and points; the winding counts are kept up incrementally and never compared with the rings", "anchors": ["wagyu/ring_manager.py:RingManager.execute_vatti", "wagyu/ring_manager.py:RingManager.process_edges_at_top_of_scanbeam", "wagyu/local_minimum.py:LocalMinimumList.add_linear_ring", "wagyu/bound.py:Bound", "wagyu/bound.py:set_winding_count"]}
{"id": "C49", "title": "Intersection, union and symmetric difference are commutative", "statement": "It does not matter to intersect, unite and symmetric_subtract which polygon is called the subject and which the clip: after any history of calls, and after the same history with the two roles (and the two fill kinds) exchanged throughout, all replies to any later calls among which there is no difference are the same, results and exceptions alike. In particular a op b and b op a return the same multipolygon, vertex by vertex, or raise the same exception.", "quantifier": "every history of calls, every two polygons with any coordinates, every operation but difference, every pair of fill kinds, both output orientations", "why_tests_cant": "unboundedly many histories and rings; the code treats the two polygons asymmetrically at many places (fill kinds, opposite counts, conditions on the polygon kind)", "anchors": ["wagyu/wagyu.py:Wagyu.execute", "wagyu/bound.py:Bound.is_contributing", "wagyu/bound.py:set_winding_count", "wagyu/ring_manager.py:RingManager.intersect_bounds"]}
{"id": "C50", "title": "Operations with an empty polygon", "statement": "With no clip ring held, unite, subtract and symmetric_subtract return the same multipolygon (or raise the same exception), whatever fill kind is given for the clip; with no subject ring held, unite and symmetric_subtract do, whatever fill kind is given for the subject. The intersection with an empty polygon and the difference with an empty subject are empty whenever they return, and never raise 'DoMaxima error'.", "quantifier": "every history of calls after which one of the two polygons has no ring (also after clear() and earlier operations), every operation and fill kinds, any coordinates", "why_tests_cant": "unboundedly many rings and histories; the identities have to survive the whole sweep and topology correction of an arbitrary, self-crossing polygon", "anchors": ["wagyu/wagyu.py:Wagyu.execute", "wagyu/bound.py:Bound.is_contributing", "wagyu/bound.py:set_winding_count", "wagyu/ring_manager.py:RingManager.intersect_bounds", "wagyu/ring_manager.py:RingManager.do_maxima"]}
{"id": "C51", "title": "Every vertex is made of the corners and edges of the input", "statement": "Every vertex of the multipolygon an operation returns comes from the rings the object holds: it has the column of one of their corners and the row of one (a corner, in particular), or is the rounded crossing point of two of their edges, or is the point of one of their edges, rounded, on the row of a corner. No vertex of a ring that was cleared, and no other point, appears.", "quantifier": "every history of calls with coordinates up to 2^52, every operation and fill kinds, both output orientations, every vertex of the result", "why_tests_cant": "the vertices pass through the whole sweep, the hot pixels and the topology correction; unboundedly many rings", "anchors": ["wagyu/wagyu.py:Wagyu.execute", "wagyu/ring_manager.py:RingManager.build_hot_pixels", "wagyu/ring_manager.py:RingManager.execute_vatti", "wagyu/edge.py:Edge.__and__", "wagyu/edge.py:Edge.get_current_x"]}
{"id": "C52", "title": "Axis-parallel input stays on its grid", "statement": "If all sides of all rings held are horizontal or vertical, every vertex of the result of any operation has the column of some corner and the row of some corner: no rounding moves a vertex off the grid of the input.", "quantifier": "every history of calls after which all rings held are axis-parallel with coordinates up to 2^24, every operation and fill kinds, both output orientations", "why_tests_cant": "floating point crossings and roundings, and the whole sweep and topology correction, for unboundedly many rings", "anchors": ["wagyu/wagyu.py:Wagyu.execute", "wagyu/edge.py:Edge.__and__", "wagyu/edge.py:Edge.get_current_x", "wagyu/utils.py:round_towards_max", "wagyu/linear_ring.py:LinearRing.edges"]}
{"id": "C53", "title": "Every vertex lies on the edge it comes from", "statement": "As long as no active bound is left over when the sweep ends (always so when every local maximum of the input is a single point), every vertex of a result is a corner of a held ring, the rounded crossing point of two of their edges, or the rounded point of one of their edges on a row that this edge spans. In particular each vertex lies in the bounding box of a single edge of the input: no vertex mixes the row of one corner with the column of another, and none lies on the extension of an edge.", "quantifier": "every history of calls with coordinates up to 2^52, every operation and fill kinds, both output orientations, every vertex of the result; the proviso is about the end of the sweep and is discharged for input without flat tops", "why_tests_cant": "which bound has which current x on which scanline depends on the whole history of the sweep; unboundedly many rings and scanlines", "anchors": ["wagyu/wagyu.py:Wagyu.execute", "wagyu/ring_manager.py:RingManager.build_hot_pixels", "wagyu/ring_manager.py:RingManager.execute_vatti", "wagyu/bound.py:Bound.to_next_edge", "wagyu/edge.py:Edge.get_current_x"]}
{"id": "C54", "title": "Every vertex is near a side of the input", "statement": "Operations do not move geometry away from the input: as long as no active bound is left over when the sweep ends (always so when every local maximum of the input is a single point), every vertex of a result is within 1/2 + 2^k / 2^50 of a point on a side of a held ring, along each axis, when the coordinates are at most 2^k in absolute value (k at most 52). For coordinates up to 2^40 this exceeds the half unit of rounding to the grid by less than a thousandth.", "quantifier": "every history of calls with coordinates up to 2^k, every k up to 52, every operation and fill kinds, both output orientations, every vertex of the result; the proviso is about the end of the sweep and is discharged for input without flat tops", "why_tests_cant": "the bound concerns rounding errors in chains of floating point operations over all pairs of edges; unit tests use small integers for which few of these errors occur", "anchors": ["wagyu/wagyu.py:Wagyu.execute", "wagyu/edge.py:Edge.get_current_x", "wagyu/edge.py:Edge.__and__", "wagyu/point.py:Point.round", "wagyu/utils.py:round_half_up"]}
{"id": "C55", "title": "Rings show the points they are made of", "statement": "A ring constructed from a list of points shows exactly these points, in this order, under its points property, has their number, area (the shoelace formula, rounded) and tight box, and its construction leaves all other rings and point nodes alone; a ring constructed from no points shows none. After reverse the ring shows the same first point and then the others in the opposite order. all_points of a ring manager whose nodes lie on closed rings shows for every node the points of its ring, turned to start at this node; reading points changes nothing.", "quantifier": "every list of points, every state of the objects that exist already; for all_points every manager whose point nodes are distributed over closed rings", "why_tests_cant": "lists of any length, any heap of linked nodes around them", "anchors": ["wagyu/ring.py:Ring.__init__", "wagyu/ring.py:node_from_ring_points", "wagyu/ring.py:Ring.points", "wagyu/ring.py:Ring.bottom_points", "wagyu/point_node.py:PointNode.from_point", "wagyu/point_node.py:maybe_point_node_to_points", "wagyu/ring_manager.py:RingManager.all_points"]}
{"id": "C56", "title": "What is sorted is sorted by a consistent order, except crossings", "statement": "The comparisons by which local minima (LocalMinimum.__lt__), the nodes of a ring (node_key), all nodes (PointNode.__lt__) and rings (Ring.__lt__) are sorted are strict weak orders, so that there is exactly one stable result of sorting, whatever the sorting algorithm, ascending or descending. The comparison of crossings (IntersectNode.__lt__) is not: three crossings can each come before the next one in a circle, because approximate equality of their y is not transitive, so that no order of them is right and what sorted returns depends on the algorithm.", "quantifier": "all local minima, nodes, rings with any areas (never nan when sorted), all lists of them; for crossings a witness", "why_tests_cant": "consistency of a comparison is about all triples, uniqueness of the sorted list about all lists", "anchors": ["wagyu/local_minimum.py:LocalMinimum.__lt__", "wagyu/point_node.py:PointNode.__lt__", "wagyu/point_node.py:node_key", "wagyu/ring.py:Ring.__lt__", "wagyu/intersect_node.py:IntersectNode.__lt__"]}
{"id": "C57", "title": "Comparing Wagyu objects", "statement": "Two Wagyu objects to which the same geometry was added (since their last clear()), and on which no operation was run, compare equal with ==. Two objects that compare equal, however they were made and used, and whose bounds end together with the same partners, cannot be told apart: every later call has the same reply. Without the second condition this fails: == does not compare the partners of bounds, and two triangles with a common corner added as one ring or as two rings give objects that compare equal but return different lists of polygons. Operations can be observed by comparing: after an operation an object need not equal one with the same geometry.", "quantifier": "all histories of calls (with rings of coordinates up to 2**52) that made the two objects, all later histories; witnesses for the failures", "why_tests_cant": "what two objects do later ranges over all continuations; equality of the parts that == compares says nothing about the parts it does not", "anchors": ["wagyu/wagyu.py:Wagyu.__eq__", "wagyu/local_minimum.py:LocalMinimumList.__eq__", "wagyu/local_minimum.py:LocalMinimum.__eq__", "wagyu/bound.py:Bound.__eq__", "wagyu/edge.py:Edge.__eq__"]}
{"id": "C58", "title": "Repeated points of a ring change nothing", "statement": "It does not matter how a ring is written down: a point given twice (or more often) in a row, anywhere in the ring, or the first point given once more at the end, leads to the same edges, and two histories of calls that differ only in this leave equal objects and have the same replies, the returned polygons of every operation included. A ring of at most two different neighbouring points has no edges however often they are repeated.", "quantifier": "all rings, all places and numbers of repetitions, all histories of calls with such rings, no bound on coordinates", "why_tests_cant": "rings of any length with repetitions at any place, combined with spikes and collinear runs that the edge extraction backtracks over; all histories", "anchors": ["wagyu/linear_ring.py:LinearRing.edges", "wagyu/local_minimum.py:LocalMinimumList.add_linear_ring", "wagyu/wagyu.py:Wagyu.add_linear_ring", "wagyu/wagyu.py:Wagyu.add_polygon"]}
{"id": "C59", "title": "The edges of a ring are its shape", "statement": "The edges of a ring are those of a closed path of the same shape on which no vertex is on one line with its neighbours. Two rings have the same edges, up to where the list starts, exactly if they have the same shape: if one becomes the other by starting at another point, by putting in or leaving out points that are on one line with the points before and after them (points on sides, repeated points, tips of spikes), and by leaving out a ring that has shrunk to one point. A ring has no edges, and add_linear_ring answers False and adds nothing, exactly if its shape is that of a point.", "quantifier": "all rings, all pairs of rings, all sequences of such changes of any length; for the answer of add_linear_ring coordinates whose differences are finite floats", "why_tests_cant": "that the order in which spikes and points on sides are removed does not matter (confluence) is about all rings and all orders; the edge extraction removes them in one order that depends on the starting point", "anchors": ["wagyu/linear_ring.py:LinearRing.edges", "wagyu/local_minimum.py:LocalMinimumList.add_linear_ring", "wagyu/point.py:are_points_slopes_equal", "wagyu/edge.py:are_edges_slopes_equal"]}
{"id": "C60", "title": "The local minima of a ring are those of its shape", "statement": "Two rings of the same shape (one becomes the other by starting at another point and by putting in or leaving out points on one line with their neighbours) get the same answer from add_linear_ring, and what it adds is the same: the same local minima in the same circular order (the list may start at another one), with the same y, the same flag for horizontals, and bounds with the same edges, sides, winding deltas, kinds and the same partners at the maxima. Nothing that was there before changes.", "quantifier": "all pairs of rings of the same shape, whatever the lists of local minima they are added to hold; coordinates whose differences are finite floats", "why_tests_cant": "where the extraction of minima starts depends on the first point of the ring, with flat tops and bottoms at the seam; all rings and all starting points", "anchors": ["wagyu/local_minimum.py:LocalMinimumList.add_linear_ring", "wagyu/local_minimum.py:to_edges_starting_on_local_maximum", "wagyu/bound.py:create_bound_towards_minimum", "wagyu/bound.py:create_bound_towards_maximum", "wagyu/linear_ring.py:LinearRing.edges"]}
{"id": "C61", "title": "The edges of a ring move with the ring", "statement": "Translating, mirroring, turning, scaling or shearing a ring by an integer affine map that is not degenerate does the same to the path its edges go around, and reversing the order of its points reverses that path: the edges of the new ring are those around the moved (or reversed) path, up to where the list starts. The path itself, taken as a ring, has the same edges again.", "quantifier": "all rings, all integer affine maps with determinant other than 0", "why_tests_cant": "all rings and all maps; the edge extraction compares coordinates in ways that are not symmetric in x and y", "anchors": ["wagyu/linear_ring.py:LinearRing.edges", "wagyu/edge.py:Edge.__init__", "wagyu/point.py:are_points_slopes_equal", "wagyu/point.py:is_point_between_others"]}
{"id": "C62", "title": "Rings without extent are ignored", "statement": "A ring that has the shape of a point (no points, one or two points, points on one line, ways to and fro, however they branch) is ignored: add_linear_ring answers False and leaves the object as it was; adding a polygon with such rings among its rings is adding the polygon without them, with the same answer; and leaving out such rings, as arguments of add_linear_ring, among the rings of polygons, or as whole polygons, from a history of calls leaves the same object and the same replies, but for the answers False of the calls left out. In particular every intersect, unite, subtract and xor has the same result.", "quantifier": "all rings of that shape, all polygons with any number of them at any place, all histories of calls, no bound on coordinates", "why_tests_cant": "degenerate rings of any length, with any nesting of spikes in spikes, at any place of any history", "anchors": ["wagyu/wagyu.py:Wagyu.add_linear_ring", "wagyu/wagyu.py:Wagyu.add_polygon", "wagyu/local_minimum.py:LocalMinimumList.add_linear_ring", "wagyu/linear_ring.py:LinearRing.edges"]}
{"id": "C63", "title": "Where a ring with one local minimum starts does not matter", "statement": "If the points of a ring, read from some point on, first never go down and then never go up (as the corners of every convex polygon do, which is proved as well, but those of many others too), then adding it is adding any ring of the same shape: the object afterwards is exactly the same whatever point the ring starts at and whatever points on its sides, repeated points and spikes it has. Two histories of calls that differ only in this leave the same object and have the same replies, the returned polygons of every operation included.", "quantifier": "all such rings and all rings of the same shape, all histories of calls with them; coordinates whose differences are finite floats", "why_tests_cant": "all starting points and all ways of putting in redundant points, and all continuations; for rings with two local minima it is false", "anchors": ["wagyu/wagyu.py:Wagyu.add_linear_ring", "wagyu/wagyu.py:Wagyu.add_polygon", "wagyu/local_minimum.py:LocalMinimumList.add_linear_ring", "wagyu/local_minimum.py:to_edges_starting_on_local_maximum", "wagyu/local_minimum.py:to_local_maximum_index"]}
{"id": "C64", "title": "How rings are grouped into polygons does not matter", "statement": "Adding a polygon is adding its rings one after the other with add_linear_ring: the object afterwards is the same and the answer is True exactly if it is for one of the rings. Two histories of calls that are the same ring by ring, however the rings are grouped into polygons (holes with their exterior or not, several polygons as one, empty polygons) or added alone, leave the same object, and every intersect, unite, subtract and xor has the same result: only the fill rule decides what is a hole.", "quantifier": "all histories of calls and all ways of grouping the rings; coordinates whose differences are finite floats", "why_tests_cant": "all histories and all groupings", "anchors": ["wagyu/wagyu.py:Wagyu.add_polygon", "wagyu/wagyu.py:Wagyu.add_linear_ring", "wagyu/local_minimum.py:LocalMinimumList.add_linear_ring"]}
