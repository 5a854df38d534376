# Generates /verif/properties.jsonl
import json
P=[]
def p(id,title,statement,quantifier,why,anchors):
    P.append(dict(id=id,title=title,statement=statement,quantifier=quantifier,why_tests_cant=why,anchors=anchors))
p("C01","No input, no output",
 "On a Wagyu object that holds no rings (freshly created, or after clear(), or to which only degenerate rings were added so that every add call returned False), intersect, unite, subtract and symmetric_subtract return the empty Multipolygon and raise nothing.",
 "every operation kind, every pair of fill kinds, both values of reverse_output, every history of adds and clears that leaves the object empty",
 "the set of histories that leave the object empty is unbounded",
 ["wagyu/wagyu.py:Wagyu.execute","wagyu/wagyu.py:Wagyu.clear","wagyu/local_minimum.py:LocalMinimumList.add_linear_ring"])
p("C02","Output rings are closed",
 "Every linear ring of every Multipolygon returned by intersect/unite/subtract/symmetric_subtract has at least two points and its first point equals its last point.",
 "every Wagyu object (any rings added, any previous executions), operation and fill kinds for which the call returns",
 "ranges over all input geometries and all histories",
 ["wagyu/polygon.py:point_node_to_linear_ring","wagyu/polygon.py:rings_to_polygons","wagyu/ring_manager.py:RingManager.build_result"])
p("C03","reverse_output only reverses",
 "After the same calls, an operation on an object created with reverse_output=True has the same outcome as on one created with reverse_output=False (the same exception, or a result), except that the points of every linear ring of the result are listed in the opposite order; the number, order and nesting of polygons and rings are the same.",
 "every history of calls, every operation and fill kinds; and every forest of output rings whose point nodes form circular doubly linked lists, of any size and nesting depth",
 "all histories, all sizes and nestings of output",
 ["wagyu/wagyu.py:Wagyu.execute","wagyu/polygon.py:point_node_to_linear_ring","wagyu/polygon.py:rings_to_polygons","wagyu/point_node.py:PointNode.__iter__","wagyu/point_node.py:PointNode.__reversed__"])
p("C04","An operation does not depend on earlier operations",
 "Calling intersect/unite/subtract/symmetric_subtract any number of times on a Wagyu object leaves the stored input geometry as it was and does not change the value (or exception) later calls produce: the result is a function of the rings added, the operation, the fill kinds and reverse_output only.",
 "every Wagyu object, every history of operations executed on it before",
 "histories of operations are unbounded; the bounds carry mutable run-time fields between runs",
 ["wagyu/wagyu.py:Wagyu.execute","wagyu/local_minimum.py:LocalMinimum.initialize","wagyu/ring_manager.py:RingManager.execute_vatti","wagyu/ring_manager.py:RingManager.build_hot_pixels"])
p("C05","Reading bounds is not an observation",
 "A user relies on reading Wagyu.bounds to return the bounding box and to change nothing. At this commit that holds only for an object without geometry: otherwise the corners of the returned box are two point objects of the stored geometry (the top of the first and the bottom of the last edge of the first bound), which are the caller's points, and computing the box moves them (no others): whenever the first edge leans to the right its top is moved; there are triangles whose vertex is moved and triangles whose returned box is wrong.",
 "every geometry held by a Wagyu object, every heap of points",
 "aliasing between the caller's points, the stored edges and the returned box is a heap property for all inputs",
 ["wagyu/wagyu.py:Wagyu.bounds","wagyu/edge.py:Edge.__init__"])
p("C06","Winding bookkeeping equals true winding numbers",
 "At every moment of the sweep, for every active bound, winding_count and opposite_winding_count are determined by the true winding numbers of the subject and clip polygons immediately left and right of the bound (sums of winding deltas of the bounds to its left): for a non-even-odd fill the winding count is whichever of the two adjacent winding numbers of its own polygon is larger in absolute value, and the opposite count is the winding number of the other polygon (its parity when that polygon is filled even-odd).",
 "every sequence of sweep events (insertion of a local minimum's two bounds anywhere, crossing of two adjacent bounds, removal of an adjacent pair with opposite deltas) of any length, every pair of fill kinds",
 "event histories are unbounded",
 ["wagyu/bound.py:set_winding_count","wagyu/ring_manager.py:RingManager.intersect_bounds","wagyu/ring_manager.py:RingManager.insert_lm_left_and_right_bound"])
p("C07","Bounds carry output exactly on the boundary of the boolean result",
 "At every moment of the sweep a bound is attached to an output ring if and only if the boolean combination (intersection, union, difference, symmetric difference) of the two filled polygons differs between the regions immediately left and right of the bound.",
 "every operation, every pair of fill kinds, every sequence of sweep events of any length",
 "event histories and winding numbers are unbounded",
 ["wagyu/bound.py:Bound.is_contributing","wagyu/ring_manager.py:RingManager.intersect_bounds","wagyu/ring_manager.py:RingManager.add_local_minimum_point","wagyu/ring_manager.py:RingManager.add_local_maximum_point"])
p("C08","Crossings are always processed in a feasible order",
 "For the crossings found on one scanbeam, processing them in any order produced by sorting, with the adjacency correction, never raises 'Could not properly correct intersection order' and never indexes out of range; each found crossing is processed exactly once, always between two bounds that are adjacent at that moment with the recorded first bound on the left, and afterwards the active bounds are in the order computed when the crossings were found.",
 "every list of distinct active bounds, every assignment of their current x and slopes, every permutation of the crossings",
 "all permutations of unboundedly many crossings",
 ["wagyu/ring_manager.py:RingManager.process_intersect_list","wagyu/ring_manager.py:RingManager.process_intersections","wagyu/intersect_node.py:build_intersect_list","wagyu/bubble_sort.py:bubble_sort"])
p("C09","bubble_sort is a terminating adjacent-swap sort",
 "bubble_sort leaves its input list unchanged, returns a permutation of it in which no adjacent pair is rejected by the comparator, calls on_swap exactly once per exchanged pair (left element first), and terminates whenever every rejected pair is strictly decreasing in some linear order; with the sweep's comparator each pair of bounds is exchanged at most once, and a pair is exchanged iff its order differs between input and output.",
 "every list and every such comparator",
 "termination and permutation for all lengths",
 ["wagyu/bubble_sort.py:bubble_sort","wagyu/bound.py:intersection_compare"])
p("C10","Hot pixels end up sorted without duplicates",
 "After the hot pixels are sorted they are ordered strictly by descending y and then ascending x, contain no duplicate, and are exactly the set of points recorded; the sort terminates.",
 "every list of points of any length",
 "an in-place quicksort with an explicit stack must be right for every length and arrangement",
 ["wagyu/utils.py:quicksort","wagyu/ring_manager.py:RingManager.sort_hot_pixels","wagyu/ring_manager.py:hot_pixels_compare"])
p("C11","The scanbeam queue stays sorted and duplicate-free under insertion",
 "Inserting a y coordinate into the sorted scanbeam queue keeps it sorted, adds that coordinate and nothing else, and adds nothing when it is already there, so the next scanline taken is always the largest pending y.",
 "every sorted queue and coordinate",
 "all sizes",
 ["wagyu/utils.py:insort_unique","wagyu/bound.py:Bound.to_next_edge","wagyu/ring_manager.py:RingManager.insert_lm_left_and_right_bound"])
p("C12","Hot pixels lie within the input's extent",
 "Every hot pixel recorded for the added rings lies within the bounding box of the points of those rings.",
 "every Wagyu object built by adding rings with integer coordinates",
 "all geometries; depends on rounding of every crossing",
 ["wagyu/ring_manager.py:RingManager.build_hot_pixels","wagyu/edge.py:Edge.__and__","wagyu/edge.py:Edge.get_current_x","wagyu/point.py:Point.round"])
p("C13","The sweeps terminate",
 "Both plane sweeps (recording hot pixels, building rings) finish after a number of scanlines bounded by the number of input edges, visiting scanlines in non-increasing y, for every set of added rings with coordinates up to 2**52; every loop inside a sweep finishes, too.",
 "every Wagyu object built by adding rings",
 "termination",
 ["wagyu/ring_manager.py:RingManager.build_hot_pixels","wagyu/ring_manager.py:RingManager.execute_vatti"])
p("C14","Edge extraction keeps only genuine edges",
 "Extracting the edges of a linear ring never fails; the edges are built only from the ring's own points, no edge is degenerate (its end points differ), there are none or at least three of them (none for fewer than three points), they form a closed chain, consecutive edges sharing an end point, and no two cyclically consecutive edges are parallel. Every point of an edge lies on one of the sides of the ring.",
 "every list of points",
 "all lists, including repeated and collinear points and spikes",
 ["wagyu/linear_ring.py:LinearRing.edges"])
p("C15","Local minima decompose the ring into paired monotone bounds",
 "add_linear_ring never raises; it returns False and adds nothing when the ring has no edges. When it accepts a ring, the added local minima use every edge of the ring exactly once (up to reversing horizontals); each bound is a chain of edges each starting where the previous ended and never going down; both bounds of a minimum start at the same point whose y is the recorded one; the two bounds have opposite winding deltas and opposite sides; and the bounds are matched in pairs at the maxima, the partner of the partner being the bound itself and having the opposite winding delta and the same polygon kind.",
 "every accepted ring",
 "all rings",
 ["wagyu/local_minimum.py:LocalMinimumList.add_linear_ring","wagyu/bound.py:create_bound_towards_minimum","wagyu/bound.py:create_bound_towards_maximum","wagyu/bound.py:Bound.fix_horizontals","wagyu/bound.py:Bound.move_horizontals"])
p("C16","add_polygon reports exactly whether anything was added",
 "add_polygon adds the rings in order and returns True iff at least one of them added a local minimum, i.e. iff the stored geometry grew; a False result means the object is unchanged. Existing geometry is never altered by adding.",
 "every polygon with any number of rings, every Wagyu state",
 "all ring lists and states",
 ["wagyu/wagyu.py:Wagyu.add_polygon","wagyu/wagyu.py:Wagyu.add_linear_ring","wagyu/local_minimum.py:LocalMinimumList.add_linear_ring"])
p("C17","Rounding goes to a nearest integer",
 "round_half_up returns a nearest integer, ties away from zero; round_towards_min/max return an integer neighbouring the value and differ from the nearest one only when the value is within 4 ulps of a half-integer, where they go down/up; all three return integers unchanged and keep the value inside any integer interval that contains it.",
 "every finite double",
 "2^64 doubles",
 ["wagyu/utils.py:round_half_up","wagyu/utils.py:round_towards_min","wagyu/utils.py:round_towards_max"])
p("C18","Approximate float equality is exactly a 4-ulp test",
 "are_floats_almost_equal(x, y) holds iff at most four representable doubles have to be stepped over to get from x to y (counting +0 and -0 as one); it is reflexive and symmetric, never holds for integers that differ with magnitude up to 2^50, and the derived less/greater tests are consistent with it and mutually exclusive. is_float_almost_zero(n) for an integer n holds iff n = 0.",
 "every pair of finite doubles",
 "2^128 pairs",
 ["wagyu/utils.py:are_floats_almost_equal","wagyu/utils.py:_double_to_biased","wagyu/utils.py:are_floats_less_than","wagyu/utils.py:are_floats_greater_than","wagyu/utils.py:is_float_almost_zero"])
p("C19","Point-in-polygon classification is right",
 "For an integer point and a ring of integer points, the classification is ON iff the point lies on one of the ring's segments; otherwise it is INSIDE iff a horizontal ray crosses the ring an odd number of times; the answer does not depend on the node from which the ring is traversed.",
 "every ring of any length, every point",
 "all rings and points",
 ["wagyu/point_node.py:point_in_polygon"])
p("C20","Ring statistics are the shoelace area, count and tight box",
 "For a ring of point nodes the reported size is the number of nodes, the box is the tight bounding box of the points, and the area is the shoelace signed area: independent of the starting node, negated by reversing the ring, and additive when a ring is split in two at two nodes at the same location.",
 "every ring of any length",
 "all sizes",
 ["wagyu/point_node.py:PointNode.stats","wagyu/point_node.py:PointNode.reverse","wagyu/ring_manager.py:RingManager.correct_self_intersection"])
p("C21","Linked rings behave like cyclic lists",
 "Iterating a ring yields each of its nodes once in order, place_before inserts exactly one node just before another, reverse reverses the cyclic order of exactly that ring, and none of them disturbs any other ring.",
 "every heap of point nodes, every ring length",
 "pointer structures of all sizes",
 ["wagyu/point_node.py:PointNode.__iter__","wagyu/point_node.py:PointNode.place_before","wagyu/point_node.py:PointNode.reverse"])
p("C22","Joining two open rings keeps all points in order",
 "When two open output rings meet at a local maximum the joined ring contains exactly the points of both, each in its original order or reversed as a block according to the sides of the two bounds, and the removed ring keeps no points.",
 "every pair of rings of any length, all four side combinations",
 "all sizes",
 ["wagyu/ring_manager.py:RingManager.append_ring"])
p("C23","Splitting at a repeated point partitions the ring",
 "Correcting a self-intersection at two nodes of one ring yields two rings whose node sequences partition the original cyclic sequence, the one with the larger absolute area staying the original ring.",
 "every ring of any length and every two distinct nodes of it",
 "all sizes",
 ["wagyu/ring_manager.py:RingManager.correct_self_intersection"])
p("C24","Output polygons enumerate the ring forest exactly once",
 "Building the result emits one polygon for every ring at even depth, with that ring first as exterior and its direct children as holes in order, and every ring of the forest appears in the output exactly once.",
 "every forest of rings of any size and depth",
 "all trees",
 ["wagyu/polygon.py:rings_to_polygons","wagyu/polygon.py:Multipolygon.from_rings"])
p("C25","Every open output ring has exactly two ends",
 "At every moment of the sweep each output ring attached to any active bound is attached to exactly two, one as LEFT and one as RIGHT side.",
 "every sequence of sweep events of any length, every operation and fill kinds",
 "event histories are unbounded",
 ["wagyu/ring_manager.py:RingManager.add_local_minimum_point","wagyu/ring_manager.py:RingManager.add_local_maximum_point","wagyu/ring_manager.py:RingManager.append_ring","wagyu/ring_manager.py:RingManager.intersect_bounds"])
p("C26","Maxima never find half an output ring",
 "When an adjacent pair of bounds with opposite winding deltas of the same polygon ends at a maximum, either both or neither carries an output ring, so 'DoMaxima error' is not raised for such a pair.",
 "every sequence of sweep events leading to the maximum",
 "event histories are unbounded",
 ["wagyu/ring_manager.py:RingManager.do_maxima"])
p("C27","clear forgets everything",
 "After clear() the object is equal to a fresh one with the same reverse_output and every later history produces the same results as on a fresh object.",
 "every history before and after the clear",
 "unbounded histories",
 ["wagyu/wagyu.py:Wagyu.clear","wagyu/local_minimum.py:LocalMinimumList"])
p("C28","LocalMinimumList violates the MutableSequence contract",
 "LocalMinimumList is declared a MutableSequence, so a user relies on insert(index, value), append and extend to return after storing the value. At this commit they never do: insert calls itself with the same arguments, so for every list, index and value insert and append never return, and extend never returns for a non-empty iterable; the contract fails.",
 "every list, index and value, every recursion depth",
 "non-termination cannot be observed by a finite test; here every call recurses without end",
 ["wagyu/local_minimum.py:LocalMinimumList.insert"])
p("C29","Crossing points stay inside both edges' extents",
 "When the crossing of two edges is defined, its coordinates (and their rounding) lie within the bounding box of the first edge; in exact arithmetic it lies on both edges, and two edges have no crossing when they are parallel.",
 "every pair of edges with integer end points",
 "all coordinates; rounding",
 ["wagyu/edge.py:Edge.__and__","wagyu/point.py:Point.round"])
p("C30","Edges are normalised",
 "An edge built from two points has its bottom at least as low (y not smaller) as its top, the same two end points, and is horizontal iff the two y are equal; reversing a horizontal edge swaps its ends and doing so twice restores it; building from swapped points gives an equal edge when it is not horizontal.",
 "every pair of points",
 "all coordinates",
 ["wagyu/edge.py:Edge.__init__","wagyu/edge.py:Edge.reverse_horizontal","wagyu/edge.py:Edge.is_horizontal"])
p("C31","Box containment is a partial order",
 "Box.inside_of is reflexive, transitive and antisymmetric and holds iff every point of the first box is a point of the second (for non-empty boxes).",
 "every box",
 "all coordinates",
 ["wagyu/box.py:Box.inside_of"])
p("C32","rotate_sequence is a cyclic shift",
 "rotate_sequence returns a cyclic rotation of its argument for every index, positive, negative or out of range, and rotating by k then -k restores the sequence.",
 "every sequence and index",
 "all lengths and indices",
 ["wagyu/utils.py:rotate_sequence"])
p("C33","Edges that are collinear are recognised exactly",
 "are_points_slopes_equal holds iff the three points are collinear, are_edges_slopes_equal iff the edges are parallel; for collinear points is_point_between_others holds iff the middle one lies strictly between.",
 "all integer points",
 "all coordinates",
 ["wagyu/point.py:are_points_slopes_equal","wagyu/edge.py:are_edges_slopes_equal","wagyu/point.py:is_point_between_others"])
p("C34","The ring forest stays consistent",
 "Re-parenting, replacing and removing rings keep the forest consistent: a ring is listed exactly once among the children of its parent (or the top level) and nowhere else, and re-parenting a ring under one with the same orientation is refused.",
 "every forest and every sequence of tree operations",
 "unbounded histories of tree edits",
 ["wagyu/ring_manager.py:RingManager.reassign_as_child","wagyu/ring_manager.py:RingManager.assign_as_child","wagyu/ring_manager.py:RingManager.assign_as_sibling","wagyu/ring_manager.py:RingManager.replace_ring","wagyu/ring_manager.py:RingManager.remove_ring","wagyu/ring.py:set_to_children","wagyu/ring.py:remove_from_children"])
p("C35","Output vertices come from the sweep, within the input's extent",
 "Every vertex of every result has a y coordinate between the smallest and largest y of the added rings; topology correction invents no vertex. Every vertex has an x coordinate between the smallest and largest x of the added rings, provided the sweep leaves no active bound behind, which is always so when every local maximum of the rings is a single point.",
 "every Wagyu object built by adding rings, every operation and fill kinds for which the call returns",
 "all geometries",
 ["wagyu/ring_manager.py:RingManager.create_point_node","wagyu/ring_manager.py:RingManager.correct_topology"])
p("C36","Edge extraction keeps signed area and winding numbers",
 "Dropping repeated points, collinear points and spikes while extracting the edges of a linear ring changes neither the signed area enclosed by the ring nor its winding number around any integer point (nor any other quantity of directed segments that adds up along lines); a ring without edges has area zero and winding number zero everywhere.",
 "every list of points, every point of the plane",
 "all rings, including self-overlapping ones",
 ["wagyu/linear_ring.py:LinearRing.edges"])
p("C37","The stored bounds represent the ring's winding numbers",
 "After add_linear_ring, for every integer point of the plane the sum over the newly stored bounds of the winding delta times the signed number of crossings of the ray to the right of the point with that bound equals the winding number of the given ring around the point; the same holds for twice the signed area and for every other quantity of directed segments that adds up along lines.",
 "every ring, every point of the plane, every prior content of the list",
 "all rings, including self-overlapping ones with horizontal runs",
 ["wagyu/local_minimum.py:LocalMinimumList.add_linear_ring","wagyu/bound.py:create_bound_towards_minimum","wagyu/bound.py:create_bound_towards_maximum"])
p("C38","The sweep builds closed rings",
 "When the two sweeps of an operation end without an exception, every point they created belongs to exactly one ring, the points of every ring form a closed circular doubly linked list starting at the ring's recorded node, every point records that ring, and no ring is its own ancestor.",
 "every history of calls with coordinates up to 2**52, every operation and pair of fill rules",
 "all inputs; heap shape after arbitrarily many ring splits and joins",
 ["wagyu/ring_manager.py:RingManager.execute_vatti","wagyu/ring_manager.py:RingManager.append_ring","wagyu/ring_manager.py:RingManager.add_local_maximum_point","wagyu/ring_manager.py:RingManager.create_point_node"])
p("C39","Operations on accepted polygons can raise",
 "A user relies on intersect, unite and subtract returning a multipolygon for polygons that add_linear_ring accepted. At this commit they do not always: for two convex quadrilaterals with coordinates below 100 whose sides overlap, all three raise RuntimeError('DoMaxima error'), however long they run; the contract fails. The outcome of an operation (value, exception, object afterwards) is unique: it does not depend on the step bounds of the model.",
 "two fixed quadrilaterals, every sufficiently large step bound; for uniqueness every object, operation, fill rules and step bounds",
 "that an exception is an effect of the algorithm and not of a bound needs every bound; the tests of the project never met this input",
 ["wagyu/ring_manager.py:RingManager.do_maxima","wagyu/ring_manager.py:RingManager.process_horizontal_left_to_right","wagyu/wagyu.py:Wagyu.execute"])
p("C40","The sweep of a whole operation is a sequence of events; only one RuntimeError is possible",
 "After any history of calls on an object whose stored rings have no flat top (no monotone bound ends in a horizontal edge; in particular whenever LinearRing.edges of the held rings has no horizontal edge), the sweep of every operation only inserts local minima, crosses adjacent bounds and ends adjacent partners together: at the end of every scanline winding counts are right (C06), bounds carry output exactly on the boundary of the boolean result (C07) and every open ring has two ends (C25). Neither 'DoMaxima error' nor 'Could not properly correct intersection order' is raised: the only RuntimeError the sweeps may raise is 'Trying to find intersection of lines that do not intersect'. (C39 shows that with flat tops DoMaxima error does occur.) Whatever the stored rings (flat tops included): if at the end of a later scanline no bound has ended without its partner, in particular if the sweep ends with no bound left active, every scanline was right in this sense; otherwise a bound with a flat top ended without its partner, the partner is left for good, and only after that can another RuntimeError be raised.",
 "every history of calls with coordinates up to 2^52 in absolute value, every operation, fill kinds and scanline; without flat tops unconditionally, with flat tops until a bound ends without its partner",
 "unboundedly many histories, scanlines and crossings",
 ["wagyu/ring_manager.py:RingManager.execute_vatti","wagyu/ring_manager.py:RingManager.process_edges_at_top_of_scanbeam","wagyu/ring_manager.py:RingManager.process_horizontals","wagyu/ring_manager.py:RingManager.do_maxima","wagyu/ring_manager.py:RingManager.insert_local_minima_into_abl","wagyu/ring_manager.py:RingManager.process_intersections"])
p("C41","The first stages of the topology correction end",
 "After any history of calls, once the sweeps of an operation have ended, correct_orientations, correct_collinear_edges, correct_self_intersections and correct_tree end: no endless loop, no AttributeError on a missing link, no RuntimeError other than 'Could not find a point within the polygon to test' and 'Could not properly place hole to a parent'. Afterwards the remaining points are distributed over closed rings, none has been created and none has moved.",
 "every history of calls with coordinates up to 2^52 in absolute value, every operation and fill kinds",
 "unboundedly many histories and ring configurations; an endless loop is not observable by a test",
 ["wagyu/ring_manager.py:RingManager.correct_topology","wagyu/ring_manager.py:RingManager.correct_collinear_edges","wagyu/ring_manager.py:RingManager.correct_self_intersections","wagyu/ring_manager.py:RingManager.correct_tree"])
p("C42","Orientations follow the nesting depth",
 "After correct_orientations every ring has at least three points and, unless its area is zero, is positively oriented iff it has an even number of ancestors; rings with fewer points are removed, all others are unchanged or exactly reversed.",
 "every history of calls with coordinates up to 2^52 in absolute value, every operation and fill kinds, every ring",
 "unboundedly many rings and depths",
 ["wagyu/ring_manager.py:RingManager.correct_orientations","wagyu/point_node.py:PointNode.reverse"])
p("C43","Rings are split at repeated points without loss",
 "After correct_self_intersections no ring visits a position twice, every point is still in a ring, and the rings have in total exactly the same directed edges as before: the total signed area and all winding numbers are unchanged.",
 "every history of calls with coordinates up to 2^52 in absolute value, every operation and fill kinds, every ring and position",
 "unboundedly many rings with arbitrarily many repeated points",
 ["wagyu/ring_manager.py:RingManager.correct_self_intersections","wagyu/ring_manager.py:RingManager.correct_ring_self_intersections","wagyu/ring_manager.py:RingManager.correct_repeated_points"])
p("C44","The tree of rings is sound",
 "When correct_tree returns, only rings without area have been removed; every remaining ring has an area, a ring at the top level is positively oriented, every other ring has the opposite orientation of its parent and lies in it as far as its vertices tell, and no ring is its own ancestor.",
 "every history of calls with coordinates up to 2^52 in absolute value, every operation and fill kinds, every ring",
 "unboundedly many rings; wrong parents show only in the polygons of particular inputs",
 ["wagyu/ring_manager.py:RingManager.correct_tree","wagyu/ring_manager.py:RingManager.reassign_as_child","wagyu/ring.py:Ring.inside_of","wagyu/point_node.py:inside_or_outside_special"])
p("C45","Merging touching rings loses nothing and leaves no repeated vertex",
 "When the last stage of the topology correction (correct_chained_rings and the second correct_self_intersections, repeated until nothing changes) returns, the points are distributed over closed rings, no ring visits a position twice, the same points as before are in rings, none is created or moved, and the rings have the same directed edges in total as before, so the same total signed area and winding numbers.",
 "every history of calls with coordinates up to 2^52 in absolute value, every operation and fill kinds, every number of iterations of the loop",
 "unboundedly many rings, chains of arbitrary length, and the pointers of all rings of a chain are exchanged at once",
 ["wagyu/ring_manager.py:RingManager.correct_chained_rings","wagyu/ring_manager.py:RingManager.process_single_intersection","wagyu/ring_manager.py:RingManager.find_intersect_loop","wagyu/ring_manager.py:RingManager.correct_self_intersections","wagyu/ring_manager.py:RingManager.correct_topology"])
p("C46","The rings of the result visit no vertex twice",
 "When an operation returns, every ring of every polygon of the result is closed (the last vertex is the first) and its vertices, except the last, are pairwise distinct.",
 "every history of calls with coordinates up to 2^52 in absolute value, every operation and fill kinds, every ring of the result",
 "unboundedly many inputs; repeated vertices appear only for particular coincidences of rounded crossings",
 ["wagyu/wagyu.py:Wagyu.execute","wagyu/ring_manager.py:RingManager.correct_topology","wagyu/ring_manager.py:RingManager.build_result"])
p("C47","An operation can return the wrong region",
 "A user relies on the returned multipolygon covering the symmetric difference of subject and clip. At this commit, for two convex quadrilaterals with coordinates below 100 whose sides overlap, symmetric_subtract returns without an exception, however long it may run, two polygons both of which cover every integer point strictly inside both quadrilaterals, points that do not belong to the symmetric difference; the contract fails.",
 "two fixed quadrilaterals, every integer point strictly inside both, every sufficiently large step bound",
 "a wrong region raises nothing; the tests of the project never met this input",
 ["wagyu/ring_manager.py:RingManager.process_horizontal_left_to_right","wagyu/ring_manager.py:RingManager.execute_vatti","wagyu/wagyu.py:Wagyu.symmetric_subtract"])
p("C48","Inside and outside in the sweep are those of the plane",
 "At the end of every scanline of an operation, for every point of the plane strictly between this scanline and the next: the winding number of the held subject rings around it, and that of the clip rings, is determined by the current edges of the active bounds alone; if the edges of the first active bounds pass left of the point and the others right of it, it is the sum of the winding deltas of the first ones, so that the sweep takes the place for inside the result exactly if the point belongs to the boolean combination of the two filled polygons. As long as no bound has ended without its partner, a bound carries an output ring exactly if the points left and right of its edge differ in belonging to the combination.",
 "every history of calls with coordinates up to 2^52 in absolute value, every operation and fill kinds, every scanline, every point with rational coordinates between two scanlines",
 "unboundedly many rings, scanlines and points; the winding counts are kept up incrementally and never compared with the rings",
 ["wagyu/ring_manager.py:RingManager.execute_vatti","wagyu/ring_manager.py:RingManager.process_edges_at_top_of_scanbeam","wagyu/local_minimum.py:LocalMinimumList.add_linear_ring","wagyu/bound.py:Bound","wagyu/bound.py:set_winding_count"])
p("C49","Intersection, union and symmetric difference are commutative",
 "It does not matter to intersect, unite and symmetric_subtract which polygon is called the subject and which the clip: after any history of calls, and after the same history with the two roles (and the two fill kinds) exchanged throughout, all replies to any later calls among which there is no difference are the same, results and exceptions alike. In particular a op b and b op a return the same multipolygon, vertex by vertex, or raise the same exception.",
 "every history of calls, every two polygons with any coordinates, every operation but difference, every pair of fill kinds, both output orientations",
 "unboundedly many histories and rings; the code treats the two polygons asymmetrically at many places (fill kinds, opposite counts, conditions on the polygon kind)",
 ["wagyu/wagyu.py:Wagyu.execute","wagyu/bound.py:Bound.is_contributing","wagyu/bound.py:set_winding_count","wagyu/ring_manager.py:RingManager.intersect_bounds"])
p("C50","Operations with an empty polygon",
 "With no clip ring held, unite, subtract and symmetric_subtract return the same multipolygon (or raise the same exception), whatever fill kind is given for the clip; with no subject ring held, unite and symmetric_subtract do, whatever fill kind is given for the subject. The intersection with an empty polygon and the difference with an empty subject are empty whenever they return, and never raise 'DoMaxima error'.",
 "every history of calls after which one of the two polygons has no ring (also after clear() and earlier operations), every operation and fill kinds, any coordinates",
 "unboundedly many rings and histories; the identities have to survive the whole sweep and topology correction of an arbitrary, self-crossing polygon",
 ["wagyu/wagyu.py:Wagyu.execute","wagyu/bound.py:Bound.is_contributing","wagyu/bound.py:set_winding_count","wagyu/ring_manager.py:RingManager.intersect_bounds","wagyu/ring_manager.py:RingManager.do_maxima"])
p("C51","Every vertex is made of the corners and edges of the input",
 "Every vertex of the multipolygon an operation returns comes from the rings the object holds: it has the column of one of their corners and the row of one (a corner, in particular), or is the rounded crossing point of two of their edges, or is the point of one of their edges, rounded, on the row of a corner. No vertex of a ring that was cleared, and no other point, appears.",
 "every history of calls with coordinates up to 2^52, every operation and fill kinds, both output orientations, every vertex of the result",
 "the vertices pass through the whole sweep, the hot pixels and the topology correction; unboundedly many rings",
 ["wagyu/wagyu.py:Wagyu.execute","wagyu/ring_manager.py:RingManager.build_hot_pixels","wagyu/ring_manager.py:RingManager.execute_vatti","wagyu/edge.py:Edge.__and__","wagyu/edge.py:Edge.get_current_x"])
p("C52","Axis-parallel input stays on its grid",
 "If all sides of all rings held are horizontal or vertical, every vertex of the result of any operation has the column of some corner and the row of some corner: no rounding moves a vertex off the grid of the input.",
 "every history of calls after which all rings held are axis-parallel with coordinates up to 2^24, every operation and fill kinds, both output orientations",
 "floating point crossings and roundings, and the whole sweep and topology correction, for unboundedly many rings",
 ["wagyu/wagyu.py:Wagyu.execute","wagyu/edge.py:Edge.__and__","wagyu/edge.py:Edge.get_current_x","wagyu/utils.py:round_towards_max","wagyu/linear_ring.py:LinearRing.edges"])
p("C53","Every vertex lies on the edge it comes from",
 "As long as no active bound is left over when the sweep ends (always so when every local maximum of the input is a single point), every vertex of a result is a corner of a held ring, the rounded crossing point of two of their edges, or the rounded point of one of their edges on a row that this edge spans. In particular each vertex lies in the bounding box of a single edge of the input: no vertex mixes the row of one corner with the column of another, and none lies on the extension of an edge.",
 "every history of calls with coordinates up to 2^52, every operation and fill kinds, both output orientations, every vertex of the result; the proviso is about the end of the sweep and is discharged for input without flat tops",
 "which bound has which current x on which scanline depends on the whole history of the sweep; unboundedly many rings and scanlines",
 ["wagyu/wagyu.py:Wagyu.execute","wagyu/ring_manager.py:RingManager.build_hot_pixels","wagyu/ring_manager.py:RingManager.execute_vatti","wagyu/bound.py:Bound.to_next_edge","wagyu/edge.py:Edge.get_current_x"])
p("C54","Every vertex is near a side of the input",
 "Operations do not move geometry away from the input: as long as no active bound is left over when the sweep ends (always so when every local maximum of the input is a single point), every vertex of a result is within 1/2 + 2^k / 2^50 of a point on a side of a held ring, along each axis, when the coordinates are at most 2^k in absolute value (k at most 52). For coordinates up to 2^40 this exceeds the half unit of rounding to the grid by less than a thousandth.",
 "every history of calls with coordinates up to 2^k, every k up to 52, every operation and fill kinds, both output orientations, every vertex of the result; the proviso is about the end of the sweep and is discharged for input without flat tops",
 "the bound concerns rounding errors in chains of floating point operations over all pairs of edges; unit tests use small integers for which few of these errors occur",
 ["wagyu/wagyu.py:Wagyu.execute","wagyu/edge.py:Edge.get_current_x","wagyu/edge.py:Edge.__and__","wagyu/point.py:Point.round","wagyu/utils.py:round_half_up"])
p("C55","Rings show the points they are made of",
 "A ring constructed from a list of points shows exactly these points, in this order, under its points property, has their number, area (the shoelace formula, rounded) and tight box, and its construction leaves all other rings and point nodes alone; a ring constructed from no points shows none. After reverse the ring shows the same first point and then the others in the opposite order. all_points of a ring manager whose nodes lie on closed rings shows for every node the points of its ring, turned to start at this node; reading points changes nothing.",
 "every list of points, every state of the objects that exist already; for all_points every manager whose point nodes are distributed over closed rings",
 "lists of any length, any heap of linked nodes around them",
 ["wagyu/ring.py:Ring.__init__","wagyu/ring.py:node_from_ring_points","wagyu/ring.py:Ring.points","wagyu/ring.py:Ring.bottom_points","wagyu/point_node.py:PointNode.from_point","wagyu/point_node.py:maybe_point_node_to_points","wagyu/ring_manager.py:RingManager.all_points"])
p("C56","What is sorted is sorted by a consistent order, except crossings",
 "The comparisons by which local minima (LocalMinimum.__lt__), the nodes of a ring (node_key), all nodes (PointNode.__lt__) and rings (Ring.__lt__) are sorted are strict weak orders, so that there is exactly one stable result of sorting, whatever the sorting algorithm, ascending or descending. The comparison of crossings (IntersectNode.__lt__) is not: three crossings can each come before the next one in a circle, because approximate equality of their y is not transitive, so that no order of them is right and what sorted returns depends on the algorithm.",
 "all local minima, nodes, rings with any areas (never nan when sorted), all lists of them; for crossings a witness",
 "consistency of a comparison is about all triples, uniqueness of the sorted list about all lists",
 ["wagyu/local_minimum.py:LocalMinimum.__lt__","wagyu/point_node.py:PointNode.__lt__","wagyu/point_node.py:node_key","wagyu/ring.py:Ring.__lt__","wagyu/intersect_node.py:IntersectNode.__lt__"])
p("C57","Comparing Wagyu objects",
 "Two Wagyu objects to which the same geometry was added (since their last clear()), and on which no operation was run, compare equal with ==. Two objects that compare equal, however they were made and used, and whose bounds end together with the same partners, cannot be told apart: every later call has the same reply. Without the second condition this fails: == does not compare the partners of bounds, and two triangles with a common corner added as one ring or as two rings give objects that compare equal but return different lists of polygons. Operations can be observed by comparing: after an operation an object need not equal one with the same geometry.",
 "all histories of calls (with rings of coordinates up to 2**52) that made the two objects, all later histories; witnesses for the failures",
 "what two objects do later ranges over all continuations; equality of the parts that == compares says nothing about the parts it does not",
 ["wagyu/wagyu.py:Wagyu.__eq__","wagyu/local_minimum.py:LocalMinimumList.__eq__","wagyu/local_minimum.py:LocalMinimum.__eq__","wagyu/bound.py:Bound.__eq__","wagyu/edge.py:Edge.__eq__"])
p("C58","Repeated points of a ring change nothing",
 "It does not matter how a ring is written down: a point given twice (or more often) in a row, anywhere in the ring, or the first point given once more at the end, leads to the same edges, and two histories of calls that differ only in this leave equal objects and have the same replies, the returned polygons of every operation included. A ring of at most two different neighbouring points has no edges however often they are repeated.",
 "all rings, all places and numbers of repetitions, all histories of calls with such rings, no bound on coordinates",
 "rings of any length with repetitions at any place, combined with spikes and collinear runs that the edge extraction backtracks over; all histories",
 ["wagyu/linear_ring.py:LinearRing.edges","wagyu/local_minimum.py:LocalMinimumList.add_linear_ring","wagyu/wagyu.py:Wagyu.add_linear_ring","wagyu/wagyu.py:Wagyu.add_polygon"])
p("C59","The edges of a ring are its shape",
 "The edges of a ring are those of a closed path of the same shape on which no vertex is on one line with its neighbours. Two rings have the same edges, up to where the list starts, exactly if they have the same shape: if one becomes the other by starting at another point, by putting in or leaving out points that are on one line with the points before and after them (points on sides, repeated points, tips of spikes), and by leaving out a ring that has shrunk to one point. A ring has no edges, and add_linear_ring answers False and adds nothing, exactly if its shape is that of a point.",
 "all rings, all pairs of rings, all sequences of such changes of any length; for the answer of add_linear_ring coordinates whose differences are finite floats",
 "that the order in which spikes and points on sides are removed does not matter (confluence) is about all rings and all orders; the edge extraction removes them in one order that depends on the starting point",
 ["wagyu/linear_ring.py:LinearRing.edges","wagyu/local_minimum.py:LocalMinimumList.add_linear_ring","wagyu/point.py:are_points_slopes_equal","wagyu/edge.py:are_edges_slopes_equal"])
p("C60","The local minima of a ring are those of its shape",
 "Two rings of the same shape (one becomes the other by starting at another point and by putting in or leaving out points on one line with their neighbours) get the same answer from add_linear_ring, and what it adds is the same: the same local minima in the same circular order (the list may start at another one), with the same y, the same flag for horizontals, and bounds with the same edges, sides, winding deltas, kinds and the same partners at the maxima. Nothing that was there before changes.",
 "all pairs of rings of the same shape, whatever the lists of local minima they are added to hold; coordinates whose differences are finite floats",
 "where the extraction of minima starts depends on the first point of the ring, with flat tops and bottoms at the seam; all rings and all starting points",
 ["wagyu/local_minimum.py:LocalMinimumList.add_linear_ring","wagyu/local_minimum.py:to_edges_starting_on_local_maximum","wagyu/bound.py:create_bound_towards_minimum","wagyu/bound.py:create_bound_towards_maximum","wagyu/linear_ring.py:LinearRing.edges"])
p("C61","The edges of a ring move with the ring",
 "Translating, mirroring, turning, scaling or shearing a ring by an integer affine map that is not degenerate does the same to the path its edges go around, and reversing the order of its points reverses that path: the edges of the new ring are those around the moved (or reversed) path, up to where the list starts. The path itself, taken as a ring, has the same edges again.",
 "all rings, all integer affine maps with determinant other than 0",
 "all rings and all maps; the edge extraction compares coordinates in ways that are not symmetric in x and y",
 ["wagyu/linear_ring.py:LinearRing.edges","wagyu/edge.py:Edge.__init__","wagyu/point.py:are_points_slopes_equal","wagyu/point.py:is_point_between_others"])
p("C62","Rings without extent are ignored",
 "A ring that has the shape of a point (no points, one or two points, points on one line, ways to and fro, however they branch) is ignored: add_linear_ring answers False and leaves the object as it was; adding a polygon with such rings among its rings is adding the polygon without them, with the same answer; and leaving out such rings, as arguments of add_linear_ring, among the rings of polygons, or as whole polygons, from a history of calls leaves the same object and the same replies, but for the answers False of the calls left out. In particular every intersect, unite, subtract and xor has the same result.",
 "all rings of that shape, all polygons with any number of them at any place, all histories of calls, no bound on coordinates",
 "degenerate rings of any length, with any nesting of spikes in spikes, at any place of any history",
 ["wagyu/wagyu.py:Wagyu.add_linear_ring","wagyu/wagyu.py:Wagyu.add_polygon","wagyu/local_minimum.py:LocalMinimumList.add_linear_ring","wagyu/linear_ring.py:LinearRing.edges"])
p("C63","Where a ring with one local minimum starts does not matter",
 "If the points of a ring, read from some point on, first never go down and then never go up (as the corners of every convex polygon do, which is proved as well, but those of many others too), then adding it is adding any ring of the same shape: the object afterwards is exactly the same whatever point the ring starts at and whatever points on its sides, repeated points and spikes it has. Two histories of calls that differ only in this leave the same object and have the same replies, the returned polygons of every operation included.",
 "all such rings and all rings of the same shape, all histories of calls with them; coordinates whose differences are finite floats",
 "all starting points and all ways of putting in redundant points, and all continuations; for rings with two local minima it is false",
 ["wagyu/wagyu.py:Wagyu.add_linear_ring","wagyu/wagyu.py:Wagyu.add_polygon","wagyu/local_minimum.py:LocalMinimumList.add_linear_ring","wagyu/local_minimum.py:to_edges_starting_on_local_maximum","wagyu/local_minimum.py:to_local_maximum_index"])
p("C64","How rings are grouped into polygons does not matter",
 "Adding a polygon is adding its rings one after the other with add_linear_ring: the object afterwards is the same and the answer is True exactly if it is for one of the rings. Two histories of calls that are the same ring by ring, however the rings are grouped into polygons (holes with their exterior or not, several polygons as one, empty polygons) or added alone, leave the same object, and every intersect, unite, subtract and xor has the same result: only the fill rule decides what is a hole.",
 "all histories of calls and all ways of grouping the rings; coordinates whose differences are finite floats",
 "all histories and all groupings",
 ["wagyu/wagyu.py:Wagyu.add_polygon","wagyu/wagyu.py:Wagyu.add_linear_ring","wagyu/local_minimum.py:LocalMinimumList.add_linear_ring"])
with open('/verif/properties.jsonl','w') as f:
    for r in P: f.write(json.dumps(r)+"\n")
print(len(P))
