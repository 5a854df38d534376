# A machine-checked model of lycantropos/wagyu (the Python package) in Lean 4

## 1. What is modelled

`lean/Verif/Model/` transcribes `/repo/wagyu/*.py` function by function as total, computable Lean functions; every
definition cites the lines it models.  (Nothing of the C++ original in `/repo/src`, `/repo/include`, nor its binding, is modelled.)

| file | models |
|------|--------|
| `Num` | Python `int` (`Int`), `float` (`F64`), `utils.py` rounding and 4-ulp comparison |
| `Geom` | `point.py`, `box.py`, `edge.py`, the exact predicates of `utils.py` |
| `Seq` | `bubble_sort.py`, `quicksort`, `insort_unique`, `rotate_sequence`, `find`, Python's indexing, slicing and `sorted` |
| `LinearRing` | `linear_ring.py`: edge extraction |
| `Bound`, `LocalMinimum` | `bound.py`, `local_minimum.py`: bounds, local minima, `add_linear_ring` |
| `State` | the heap and the monad (below) |
| `PointNode`, `Ring` | `point_node.py`, `ring.py` |
| `Sweep` | `ring_manager.py` 126-1100, 1326-1700, 1990-2068: both plane sweeps; `intersect_node.py` |
| `Topology` | the rest of `ring_manager.py`: topology correction |
| `Wagyu` | `wagyu.py`, `polygon.py`, `build_result` |
| `BoundsProperty` | `Wagyu.bounds`, on points as mutable heap objects |
| `Inspect` | rings made from points; `points`, `bottom_points`, `all_points` |
| `Equality` | `__eq__` of `Wagyu`, `LocalMinimumList`, `LocalMinimum`, `Bound` |

Conventions of the model:

* **Numbers.** Python `int` is `Int`.  `F64` is a finite IEEE-754 binary64 value represented by the exact rational it denotes, an
  infinity or NaN; every float operation rounds to nearest-even (`fl`).  The sign of zero is not represented (nothing observes it).
* **Objects with identity** (point nodes, rings, bounds) are records in heaps `Nat → record`; a reference is a `Nat`, `None` is `none`.
* **Statements** run in `M α = St → Res α`, a state monad with exceptions that keeps the state reached when an exception is raised (Python does
  not roll back).  Attribute access on `None`, out-of-range indices, `RuntimeError`, `AssertionError`, `RecursionError` are error values.
* **Fuel.** Loops whose termination is not structural, and recursion, get the fuel stored in the state; running out is the error
  `Err.fuel` (or `Err.recursion` for recursion, where Python, too, raises).  Fuel is an artefact of the model: theorems about runs that
  return hold for every fuel; theorems about termination say "for every large enough fuel the run does not end with `Err.fuel`".
* **Input coordinates** are Python ints, what the README and the tests use.

Simplifications (each also stated at the definition):

* CPython's `sorted` is a stable insertion sort; it differs from timsort only for comparators that are not strict weak orders.  The
  one such comparator is `IntersectNode.__lt__`; C08 is therefore proved for *every* permutation of the crossings.
* An `int` beyond `2 ** 1024` converts to an infinity instead of raising `OverflowError`; `Decimal.quantize` beyond 28 digits is not modelled.
* `clear()` reclaims the bounds of the emptied list (unreachable objects).
* Topology correction: sort keys that Python computes lazily inside comparators are computed up front.

Not modelled: `__repr__`, `__eq__` of rings, crossings, ring managers and result containers (value comparison for tests; identity is
what the algorithms use, except where `__eq__` of points and edges is used, which is modelled), the inspection properties `points` and `stored_points` of the ring
manager (of lists that are only appended to, resp. never filled), `__len__`/`__getitem__`
of the result containers (results are lists), `find_if` (inlined), float input coordinates, memory exhaustion, threads.

## 2. Trusted base

* Lean 4.33.0's kernel.
* Axioms: `propext`, `Classical.choice`, `Quot.sound` at most.  No axiom is declared, nothing is left unproved, and neither `native_decide` nor
  `bv_decide` is used.  `decide +kernel` is used for concrete examples only (the kernel evaluates).
* The faithfulness of the transcription above, by inspection.
* The specifications in `lean/Verif/Spec/` (small; they do not mention the algorithms' helpers), by inspection:
  `Plane` (segments, winding numbers, shoelace area), `Double` (steps between doubles), `Rings`/`Cycles`/`OwnRings` (circular lists, distribution of
  nodes over rings), `Chain` (edge chains), `LocalMinima` (monotone bounds), `Swaps`, `Winding` (fill rules, boolean operations), `Events` (the
  events of the sweep), `Forest` (ring trees), `History` (histories of calls), `Scanlines` (visited scanlines).

## 3. Properties: what is proved and how

| id | statement proved (all in `lean/Verif/Props/`) | method |
|----|------|------|
| C01, C16, C27 | `Api`: the object as a state machine, all histories of calls | induction over rings and histories |
| C02 | `Output`: every result of every operation on every object | post-condition of `build_result` |
| C03 | `ReverseOutput`: whole operations after any history; `Output`: `build_result` on every well-formed forest | the last stage keeps a net of nodes closed under next and previous whose links are mutual (`Proofs/Net`), so the walk from any root is a cycle (`NetCycle`), reversed by walking backwards |
| C24 | `Output`: `build_result` on every forest; end to end for every operation that returns | induction over trees |
| C04 | `Independence`: any history; the operation reads of a bound only fields it has itself written (`Proofs/Two*`: two runs in lock step), and writes no input field (`Proofs/Keep*`) | relational invariant |
| C05 | `BoundsProperty`: the contract is **violated**; the violation is proved for every geometry of the stated kind, with witnesses | heap program |
| C06, C07, C25, C26 | `Sweep`: every state reached by any sequence of the events in `Spec/Events` | inductive invariant over events |
| C08 | `Intersections`: every permutation of the crossings found | inversion sets of a permutation |
| C09, C10, C11, C32 | `BubbleSort`, `HotPixelSort`, `Sequences` | loop invariants, measures |
| C12, C13 | `HotPixels`, `RingSweep`: every history, coordinates up to 2^52 | sweep invariant (`Proofs/HotSweep`, `Vatti*`) in a total-correctness logic (`Proofs/Tot`), measure = edges still to come |
| C14, C36 | `EdgeExtraction`, `Rectilinear.C14_lines`, `NearEdge.C14_on_sides` | loop invariant; additive functionals of directed segments |
| C15, C37 | `LocalMinima` | loop invariants over the extraction of bounds |
| C17, C18, C29, C30, C31, C33 | `Floats`, `Crossing`, `Geometry` | rational arithmetic, rounding error analysis, bit patterns |
| C19, C20, C21 | `PointNodes`, `Geometry` | refinement of linked rings to lists |
| C22, C23 | `RingSurgery` | pointer surgery on cycles |
| C28 | `Geometry`/`Api`: the contract is **violated**: `insert` never returns | every amount of fuel runs out |
| C34 | `Forest`: every operation keeps the forest consistent, end to end | invariant over all statements |
| C35 | `Extent`: every history, coordinates up to 2^52; columns in `HorizontalExtent`, provided no active bound is left over by the sweep (unconditional without flat tops; a bound left without its partner is drawn beyond its last edge) | invariant "coordinates come from ..." over all statements; for columns: as long as no bound is left without its partner every current edge reaches over the scanline (`Fair.ahead`, `BoxSweep`), and floating point positions on such edges stay between their ends (C29, `getCurrentX_between`) |
| C39 | `Failures` | kernel evaluation of the failing operation with 200 steps per loop, and fuel monotonicity of every statement of the model (`Proofs/Fuel*`): an outcome other than exhaustion is the outcome for every larger fuel |
| C40 | `SweepHistory`: every history, coordinates up to 2^52, no stored bound ends in a horizontal edge | the sweep refines the events (`Proofs/SweepRun*`) |
| C40, C06, C07, C25 with flat tops | `FlatTops`: every history, coordinates up to 2^52; `Spec/Partners.AllPaired` at a later scanline | invariant "reached by events, or a partner is left for good" (`Proofs/SweepFair*`) |
| C41 | `TopologyStages`: every history, coordinates up to 2^52; the state after the sweeps (`Swept`), then the four stages as run | `Ends` (total correctness with a set of allowed exceptions) of every function; invariant `TI` (`Own`, statistics sound) and decreasing `weight` |
| C42 | `TopologyStages`: lists before and after the first stage, depth as number of ancestors | `ends_correctOrientations` |
| C43 | `TopologyStages`: no repeated position, all directed edges conserved (`Spec/Totals`) | splitting a cycle in two (`Splits`, `Cleaned`) by induction over the repeated points |
| C44 | `TopologyStages`: `Spec/Nesting.VertexInside`, orientation alternates, no ring its own ancestor | invariant `Placed` of the loop of `correct_tree` |
| C45 | `LastStage` (partial): every history, coordinates up to 2^52; partial correctness of the last stage, given that the rings of each merged chain are distinct (`Spec/LastStage.mergeSimple`); without that proviso `ReverseOutput.C45_links_stay_closed`: no point created or moved, every ring left is a closed doubly linked list | exchanging the successors of two nodes joins or splits cycles (`Proofs/Switch`), along a chain of distinct rings it turns them into two cycles (`LastWeave`), search invariants (`LastSearch`), loop invariant `LI`/`Relinked` |
| C46 | `LastStage` (partial): the rings of the result of the whole operation, under the same proviso | C45 and `build_result` |
| C47 | `WrongResult`: a witness of a wrong region; the outcome for every larger step bound, every lattice point of the intersection | evaluation in the kernel, monotony in the bound (C39) |
| C48 | `PlaneRegions`, spec `PlaneWinding`: winding numbers around rational points, by crossings of a ray; the bounds add up to the rings (C10's decomposition, for every history), active bounds have passed exactly the edges below the strip, ended and pending bounds do not meet it | invariant over scanlines (Walk, VI), telescoping sums; then C07 |
| C49 | `Symmetry`, spec `Exchange` (the history with the roles exchanged): the operation on the relabelled bounds with exchanged fill kinds is the operation on the bounds, state by state | relational logic `Via` over every function of the sweep (a map on states that commutes with the program), combined with `Two` (bounds without edges are never read) |
| C50 | `EmptyOperand`, with `heldKind` of `PlaneWinding`: on bounds of one polygon with opposite count 0, the three operations take the same decisions (`Via`), and an operation that starts no ring leaves no node, ring or root (`Idle`) | the same relational logic; invariant `Unlit` over the sweep; evaluation of the topology correction on no rings |
| C51 | `Provenance`: `Provenance`, `HeldEdge`, `HeldCorner`; the edges are those of C14 | invariant `BX`/`BS` (`Proofs/KeepBox`): points of nodes and hot pixels, edges of bounds, rows of scanbeams, current x of active bounds, over both sweeps; then `HInv` over topology correction; `SpanningProvenance`: under the guard of C35, the edges span the rows of their vertices |
| C52 | `Rectilinear`: `SideOf`, `AxisParallel`; with `C14_lines`: an extracted edge lies on the line of a side | C51, C29 (crossings within 2^-25), C17 (roundings), and a relation invariant along lines over `LinearRing.edges` (`Proofs/EdgeLines`) |
| C53 | `RowProvenance`: `RowProvenance`, with `HeldEdge`, `HeldCorner` of `Provenance` | invariant `BY` (`Proofs/RowBox`, `RowBoxHot`), as `BX`, and the current edge of every active bound reaches over the scanline; a bound takes up an edge only on the row where the edge starts; with `Walk`, `Fair` and `HotI` |
| C54 | `NearEdge`: `NearSide`, with `SideOf` of `Rectilinear` and `OnSegment` of `Spec/Plane` | `RowProvenance`, with error bounds for `getCurrentX`, crossings and the directed rounding (`Proofs/Accuracy`), and `C14_on_sides`: segments covered by sides are a line relation (`LineRel`), so merging edges keeps them covered |
| C55 | `Inspect` (model: `Model/Inspect`) | induction over the list of points; invariant `Building`: the new nodes form a circular list, the old ones are untouched |
| C56 | `Sorting`: `StrictWeak`, `StableSort` of `Spec/Sorting` | induction; it also shows that modelling `sorted` by stable insertion sort loses nothing, except for crossings, where the model fixes one of the possible outcomes (C08 holds for every one) |
| C57 | `Equality` (model: `Model/Equality`) | induction over histories (layout of bounds and minima); then C04's simulation; witnesses for the failures |
| C58 | `RepeatedPoints` (lemmas: `Proofs/EdgesRepeat`, `Proofs/EdgesRepeatRing`) | stuttering simulation of the main loop of `edges` on the ring with the repeated point by the loop on the ring; then congruence of the calls |
| C59 | `Shape` (spec: `Spec/Shape`; lemmas: `Proofs/ShapeUnique`, `Proofs/EdgesShape`, `Proofs/EdgesShapeRing`) | shape as an equivalence of point lists; removal of straight points from circular lists is confluent (diamond), so a list without straight points is the only one of its shape up to rotation; invariant of the main loop and of the loop that closes the ring: vertices kept so far followed by the points left have the shape of the ring |
| C60 | `ShapeMinima` (spec: `Spec/Renamed`; lemmas: `Proofs/ShapeMinima`) | the steps of a ring are determined by its edges, the blocks (a descent and the ascent after it) by the steps, also circularly; so the blocks of rings of one shape are rotations of one another |
| C61 | `ShapeMaps` | shape is kept by maps that keep collinearity and by reversal, and so are paths without straight vertices; then C59 |
| C62 | `Degenerate` | C59 and induction over the polygon and the history |
| C63 | `OneHill` | the path of C59 is found by leaving out points one by one, so it rises and falls once too; two blocks would need two falls and two rises; with one block the rotation to a local maximum has one answer (C60's blocks) |
| C64 | `Grouping` | induction over the polygon (no ring is rejected with an exception, by C15) and the history |
| C38 | `RingSweep` | heap invariant (`Proofs/HeapInv`) over the sweep |

The event model of C06/C07/C25/C26.  The sweep inserts minima, crosses adjacent bounds, ends adjacent partners at maxima, and otherwise leaves
the winding state of the active bounds alone; these are the constructors of `Spec.Event`, each defined by running the modelled functions of
the code.  Not covered by events: a horizontal that ends at a maximum without having met its partner (ring_manager.py:1510, 1596), and
`do_maxima` when the partner is on the left.  C40 proves that a whole operation consists of events when no stored bound ends in a horizontal
edge, and in general up to the scanline on which a bound first ends without its partner (from then on the partner never ends); C39 exhibits
such an operation.

Every property file ends with concrete, non-trivial cases meeting the hypotheses of its theorems, evaluated by the kernel.

## 4. Tests of the theorems

`tools/mutations.py` lists edits of the model, each the way a realistic bug would change the program; `tools/mutate.py` applies them to a scratch copy,
rebuilds and logs the claims whose proofs fail to `seeded/LOG.jsonl` (including survivors, with a note).
