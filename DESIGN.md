# Formal model of codac: design

The code under study is codac (C++) at the commit in `/repo`. The model is a set of total,
executable Lean 4 functions in `lean/Verif/`, each citing the file and lines it models. The
properties are listed in `properties.jsonl` (C01, C02, ...); the theorems proving them live in
`lean/Verif/Props/*.lean`, apart from the helper lemmas. `MANIFEST.json` maps each property to its
theorems.

## Conventions

* **Numbers.** Models are generic in a linearly ordered field `K` (only a linear order where nothing
  else is needed). `K = ℚ` is used for the executable examples and the counterexamples, `K = ℝ` for
  the statements needing analysis (derivative, sqrt, cos). Doubles used as *times* (slice bounds,
  `lb + timestep`, `diam`) are modelled as exact numbers.
* **Intervals.** `Itv K`: empty or `[lo,hi]` with optional infinite bounds. Set operations are exact,
  as IBEX's are (they only select bounds). Interval *arithmetic* is IBEX's: it is a parameter with the
  inclusion property (`Verif/Arith.lean`), never assumed exact, except where a comment says so.
* **Slices and gates.** codac's slices share their gates by pointer with their neighbours. A tube is
  modelled as an initial gate and a list of cells (bounds, envelope, final gate), so a shared gate is
  one object, as in the code. That the slices are adjacent is *not* built in, it is an invariant (C02).
* **Trajectory of a tube.** `f : K → K` lies in the tube iff `f` is in the envelope on the interior of
  each slice and in the gate at each gate time. This is written independently of the evaluation
  functions of the model.
* **Undefined behaviour and failed asserts** are either a distinct outcome (`Option`) or an explicit
  hypothesis of the theorem.
* A property violated by the code is kept as stated in `properties.jsonl`; the violation is proved on a
  concrete witness (theorem name containing `_fails`), and what does hold is proved with the suffix `_partial`.

## Plan per property

| id | modelled | proof |
|----|----------|-------|
| C01 | the `do … while` loop of `Tube::Tube(tdomain, timestep, codomain)` with fuel = number of steps | termination from the archimedean property, tiling by induction on the steps |
| C02 | every public update as a constructor of an operation type, `step` | invariant (adjacent, non-degenerate slices, gates in envelopes) by induction on the history |
| C03, C04 | `Tube::sample`, `sample(t,gate)`, `set(y,t)` | induction on the slice list: same set of trajectories |
| C05 | `Tube::operator()(t)`, `operator()(Interval)` | induction on the slice list |
| C06, C07 | `Slice::invert`, both `Tube::invert` | induction; C06 is false for a degenerate search interval at a slice bound: witness + `_partial` |
| C08, C09 | `operator&`, `operator\|`, scalar tube arithmetic, `op=` | structural induction, after resampling (C03) |
| C10 | `is_subset`, `is_empty`, `operator==` | induction; different slicings: witness + `_partial` |
| C11 | `truncate_tdomain`, `shift_tdomain` | truncation strictly inside a slice keeps a stale gate: witness + `_partial` |
| C12 | `remove_gate`, `merge_similar_slices` | induction |
| C13 | `partial_integral`, `integral` | loop invariant relating the accumulators with the primitive |
| C14, C15 | `TubeTreeSynthesis` | tree/list refinement; cache invariant; staleness witness for the integrals |
| C16 | bytes, little-endian integers of 2 and 4 bytes, doubles through an abstract 8-byte representation (IEEE-754 instance), `serialize_*`/`deserialize_*` as writers and readers of a list of bytes | compositional round trip (`RT`): each reader finds the object back and leaves the rest; gates outside of the envelopes: intersected (exact description, witness); any file read without error gives a consistent tube |
| C17 | same model: intervals, boxes, trajectories, vectors | `RT` by composition; dimension ≥ 2^15: wrong box (for all such boxes); trajectories built by `Trajectory(list_t, list_x)`: codomain changes (witness) |
| C18 | `CtcDeriv::contract` (slice, tube), polygon bounding box in exact arithmetic | per-slice geometry + induction on the slices in both directions |
| C19 | `CtcEval::contract` | witnesses of the loss of a solution + `_partial`; interval version: a front that is not empty keeps the solutions (one step: a solution above the front is bounded by it and by `z`) |
| C20-C22 | `CtcDelay`, `CtcStatic`, `CtcPicard` slice loops | induction on slices; Picard: mean value theorem and continuous induction (a solution cannot leave an enclosure which is interior to the guess), no existence theorem needed |
| C23, C47, C35 | static contractors and separators over boxes as lists | lattice reasoning; counting argument for the q-intersection |
| C24 | `CtcDist`, `CtcSegment`, `CtcPolar` over interval operations with the inclusion property; an exact instance (smallest enclosing interval) | forward images of a solution through each step; equations of the segment; reduction of angles to the first quadrant, closedness of intervals at `π/2`; witnesses at the origin and at `θ = 0` |
| C25-C28 | contractor network as a transition system (queue, active flags, saved volumes) | invariants by induction over arbitrary schedules; NaN volume witness for C28 |
| C29-C31 | SIVIA loops with fuel and an arbitrary contractor/separator | loop invariant (cover), measure (termination) |
| C32-C34 | `Paving`, `SIVIAPaving`, `ConnectedSubset`, `TubePaving` | structural induction on the tree, work-list invariant |
| C36-C38 | `Trajectory` as sorted association list | invariants by induction on updates |
| C39, C40 | tube from trajectories, `contains` bisection | induction |
| C53-C55 | `Trajectory::primitive`, `diff`, arithmetic | induction on the points; integral of a piecewise linear function; exact identities of the difference formulas |
| C41-C43 | truth tables and thick intervals | exhaustive finite tables (the whole type, by cases), lifted; lists by induction |
| C56 | `ThickDisk::test` | extreme distances attained at corners; intermediate value theorem over the reals for the values in between |
| C44 | `GrahamScan::convex_hull` function by function on points of a linearly ordered field (exact products): removal of identical points, lowest point, swap, sort, removal of aligned points with the stale end of the array, stack | sort order is a total order above the lowest point (so `std::sort` has one result); stack invariant: increasing angles, no right turn between any three points, processed points in the convex hull of the stack; vertices, containment and convexity for all lists of points |
| C45 | `TDomain` as the list of its slices with one codomain per tube; `iterator_tslice`, `sample(t, with_gates)` with its recursive calls (fuel, three calls are proved enough) | zipper decomposition at the iterator; each body execution keeps adjacency, one gate per instant, and what the slices allow; lifted to the recursive calls and to all sequences of calls |
| C46 | `TPlane::compute_detections`, `Tube::eval`, over sequences of calls | induction over the tree with the integral enclosures, Rolle theorem; witnesses for the zeros on the boundary |
| C48 | `Domain::add_data` | invariant over sequences of data (trajectories = data so far); witness + `_partial` for the inclusion |
| C49 | `replace_all` | termination and specification by well-founded recursion; non-termination for the empty pattern |
| C57 | `Tube::eval(t)` (codac2) | evaluation = gate if any, otherwise the intersection of the slices at t; compared before and after `sample`; counterexamples at existing bounds |
| C58 | constructor, `sample([t],dt)`, `delete_gates` of `TDomain` with fuel for the loops | induction on the number of steps (Archimedean field), counterexample for dt = 0 and degenerate domains |
| C59 | `Slice::set` with gates and propagation of emptiness on the list of slices of the temporal domain; `x(t) = v` and `set(v,t)` by `sample(t,true)` | zipper at the slice; exact set of enclosed functions; what the slices other than gates say is kept by `sample` |
| C60 | `Tube::set`: slices then gates | invariant: values meet x, the slices done are x; counterexample for disjoint values |
| C61 | `Tube::operator=` slice by slice | values never larger than the assigned ones; functions common to both kept; counterexamples |
| C62 | `Tube::operator&=` | induction over the slices with the exact effect of `Slice::set` |
| C63 | `Tube::eval(Interval)` with `iterator_tslice` and its loop | positions of the two iterators, characterisation of the slices between them |
| C64 | `TubeEvaluation::operator=`: two samplings, iterators as positions, loop | positions are kept by the second sampling; the slices set tile [a,b]; counterexamples at the end of the domain; histories by induction |
| C50 | `setItv` (codac_Tube.cpp:1175-1194): sample at both bounds, set the slices between | loop invariant over the slices visited; equivalence stated with the slices of the tube before the call |
| C65 | `contains` is a loop over the edges with the exact intersection of each edge and a ray; proof by counting the crossings of a closed path with a half-line (Geometry/PolyInter). |
| C66 | `fast_intersection` as folds of edge/box intersections; the four extreme common points are reached on an edge or a corner (Geometry/FastInter). |
| C67 | `is_subset` as a loop with early exit, from C65. |
| C68 | `inter_thickpoints` and the thick-point constructor; from a common point, follow any direction to the border of the first polygon left, then the edge in both directions (Geometry/Inter). |
| C69 | The thick-point constructor builds the hull of the corners of the boxes; the sum is the Minkowski sum (Geometry/Thicken). |
| C70 | `operator==` with its index arithmetic, characterised by rotations of lists; the area as a sum of cross products (Geometry/PolyEq). |
| C71 | `Trajectory::make_continuous` as a loop over the points | induction on the list of points |
| C72 | `Paving::get_boxes` with its negative value | structural induction on the tree |
| C73 | `Slice::polygon` | the two boundaries are chains that turn left; the hull of the vertices is the set of points between six lines; each such point is joined to the gates by two lines |
| C74 | `Slice::interpol`, `Tube::interpol` with a derivative | polygon of C73 and `fast_intersection` of C66; induction on the slices |
| C75 | `Slice::invert`, `Tube::invert` (both versions) with a derivative | same |
| C51 | `tfunEval`, `tfunEvalItv`, `tfunEvalSlice`: the slices are rebuilt from an inclusion function applied to time, envelopes and gates | link between consecutive slices and the enclosure of each slice |
| C76 | `tfncEval`, `delayEval` | same construction with a function of an interval of time |
| C77 | `Tube.ofList` (constructor from lists) | induction over the list; gates are the intersections of neighbours |
| C78 | `Tube.bisect`; the bisector is a parameter | from C04 for each half |
| C79 | `hullTubes` | induction over the list with C08 (union) |
| C80 | `Tube.overlaps` | sum of the widths of the slices of the intersection with a non-empty envelope, compared with the width of the time domain |
| C81 | `Tube.primitive` = `CtcDeriv` on an unbounded tube | C18 and C13 (slopes); bound `B` of CtcDeriv remains |
| C82 | `Tube.boundTraj` (`lb`, `ub`) | the interpolation between two gates stays in the envelope |
| C83 | `Slice.evalPair`, `Tube.evalPair` | fold invariant: the pair is included in (Y,Z) iff all bounds of x(t) are |
| C84 | `largestLoop`, `gateDiamLoop`, `Tube.volume`, `Tube.diamV` | loop invariants; counter-examples for `diam(v)` and the documentation of `volume` |
| C85 | `functionContract` (loop of CtcFunction), `ctcConstell` | the loop is the one of CtcStatic (C21); constellation = union of boxes (C23) |
| C86 | `simplify` (`simpLoop`, `simpWhile`), `rotate`, `inflatePolygon` | invariant of the while loop: counterclockwise, contains the polygon; a side replaced by the point where its neighbours meet keeps convexity (`tip_spec`) |
| C87 | `linobs` (forward and backward loops on two tubes and a list of polygons, observations, `exp_At`, `polygon_envelope`), `chain` | invariant of both loops: tubes enclose the solution, polygon k contains it at gate k; one step by the mean value theorem on `E(t-s) x(s)` and `F(s-t) x(s)`; termination with a result by stability under small thresholds |
| C88 | `apply`, `invert`, `mul`, `ctcAction` on lists of integers and boxes | specification `Acts` on points; the loop of `invert` writes each place once; surjectivity by counting; exactness by applying the inverse |
| C89 | boxes as lists of intervals; the loops of the tests and operators of `IntervalMatrix_` | each test equivalent to a statement on points (`InBox`), by induction on the components |
| C90 | the two loops of `extr_diam_index`, `bisect`, `volume` with exact log and exp | invariants of the loops; specification `Wider` on distances between points; product of widths |
| C91 | the loop of `diff` over the components, `Interval::diff` as a parameter | induction with the prefix of intersections; specification with points, interiors and relative interiors |
| C92 | `Paving` as a binary tree with operations at a path | induction on histories and trees |
| C93 | the two loops of `to_codac1` over codac `Tube::set`, the sampling and setting of `to_codac2` | the cells written by the first loop are given explicitly, then an invariant on the gates in the second loop; `to_codac2` from C61 and evaluation on intervals |
| C94 | `process`, `reconstrut_v2`, `complementaryUnion`, `fixpoint` and the queue of `separate`; the separator of the product and the IBEX operations `diff`, `mid`, `bisect` are parameters with a specification, met by a union of rectangles | pointwise specification of each function, then an invariant of the loop: removed points have a witness, each point is in the inner box, in the outer box or in the queue; rank of the bisections for termination |
| C95 | building of the network: domains by address, parts of the domains, keys of the contractors and their order, loops on slices and components, derivative added by CtcEval, sub-vectors, queue | keys of contractors of a program with distinct addresses are equivalent only for equal domains and constraints; invariant of the network (registered once, closed by parts, links, queue), preserved by each call |
| C96 | the intersection done by the constructors of Domain | exact characterisation of the trajectories kept; counter-example |
| C97 | boundary of a subset, orientation, cofaces, sign vectors, local and global degree over boxes of the plane; `none` for a failed assertion | discrete Stokes formula on the edges of a grid finer than the paving, winding of a function without zero around small cells (uniform continuity), transfer to the edges and vertices of the boundary |
| C98 | Lohner algorithm on boxes and point matrices of any dimension, with the QR decomposition, midpoint and inclusion functions as parameters; loops over the slices forward and backward | Picard operator: a solution stays in a box that the operator maps into itself (clamping of the vector field, Gronwall); Taylor expansion of order 2 and mean value for the parallelepiped; induction on the slices |
| C52 | the loops of C22 with their numbers of iterations | weight of a slice at least 1 and at least twice that of its halves plus 1; enclosures increasing by monotonicity, each new one exceeds the previous one by eps or has a new machine number as a bound |
| C99 | samples at the ends of the slices, fitted polynomial (parameter), factored form, offset, tree of bisections, evaluation as hull of the two trees | the factored form equals the fitted polynomial; the offset dominates each sample; induction on the tree: each slice has a sample in a leaf; finite recursion because a domain shorter than the smallest slice is not bisected |
| C100 | contractOut, contractIn (four calls of CtcPolar) and separate, on top of the model of CtcPolar | a point out of the sector has its closest angle in theta_m or theta_p, or its distance in rho_m or rho_p; then the theorems on CtcPolar |
| C101 | argument, the sum and the answer of PdcInPolygon::test, the union of the contractors on the edges, the classification of the removed boxes | the sum of the angles is a multiple of 2π around closed polygons (product of the quotients) and continuous out of the edges, so it is constant on a segment that does not meet the edges; each point of a removed box is joined to its middle |
| C102 | the tree of PSetNode with its two boxes per node, isInside, Sivia, reunite with removeNode, separate, Sivia_ops | local invariant of the nodes (the points of the hull of the two boxes that are in the set are in m_box_out, the others in m_box_in), covering of the undecided part by the children, frontier followed down to the leaves; segments from the middle of the removed boxes |
| C103 | the list of boxes of CtcHull with x_inside; the loop of SepUnionBbox | invariant: a point of S in the box is in x_inside or in a box of the list; number of boxes bounded by the rank of the box; pieces of the difference are limits of points of S; a point of the union is kept by the first separator that removes it from x_in |
| C104 | contract, contractIn, contractOut and separate of SepPolarXYT with the IBEX functions as parameters | the real values follow the intervals step by step; the angle of the point differs from heading plus bearing by turns |
| C105 | the expression of SepDiskExists forward and backward, with the IBEX functions as parameters | the real values follow the intervals; least and greatest distances bound all distances, all values between are reached (intermediate values) |
| C106 | PNode tree, Sivia, Reunite, change, the constructor; bisector as a parameter (LargestFirst as instance) | induction on the depth: labels of all nodes (inner ones included) are right; rank of boxes for termination |
| C107 | the queue loops of contains, ctcOutside, ctcInside, ctcTransform with fuel; is_empty, check_empty, the two passes of erode | a point of a box which is not flat is in a leaf whose part of the box is not flat (cut by cut); invariants of the queues |
| C108 | save and load on a list of written values | load of save computed for every tree |
| C109 | Intersect and its three cases, the list of leaves with fuel, Interval::diff as a parameter | each case gives a point of each box of the question in a leaf of known label; union of labels over the leaves |
| C110 | TrajectoryVector as a list of trajectories: constructors, set, eval, arithmetic of codac_traj_arithmetic_vector.cpp, operators in place with an operand read at each iteration | component-wise from C36, C53, C55; a linear combination of trajectories on the same instants is exact, the double loop of sample(x[j]) gives all components the same instants |
| C111 | lists of tubes; the loops of the operators, contains, bisect, resize, hull, diag, max_gate_diam; Tube::diam(bool) with next_float and previous_float as parameters | component by component from C04, C08, C09, C40, C84; the points set by diam and diag computed for every slicing |
| C112 | the references of the domains to their values as a part of the memory; replace_var_by_dom, reset_interm_vars, contract(var_dom), CtcCN::contract on the propagation of C25-C28 | the references are an injective renaming of the cells during the call, and are restored; a property of the memory kept by the contractors is kept by the call; each queued contractor is applied before the queue is empty |
| C113 | the loops over the components of CtcEval and CtcDeriv around the models of C18, C19 | induction on the components, with a predicate on solutions that goes from one component to the next one |
| C114 | intersection of lines, projection test and the two loops over walls and bearings | the intersection is the only point of both lines; least elements by induction on the lists |
| C115 | compute_proofs and compute_loops around the models of C33, C46, C97 | the degree theorem of C97 on the move between two times; a connectedness argument on the diagonal shows that a subset strictly inside the plane, all around `OUT`, does not meet the diagonal. The example goes through an increasing map from rational to real numbers (Paving/TPlaneMap.lean) |
| C116 | `zeros_number`, `non_singular_jacobian` (list of positions in the tree, mutated paving), `Paving::bisect` | local index of a regular zero by its linear part, sum on a grid through small rectangles around the zeros (discrete Stokes), sign of the determinant kept along common points of boxes; measure on ranks of boxes for termination |
| C117 | `traj_loops_summary` on top of the trajectories (`set`, `sample`, evaluation) and of the subsets of the plane | marked samples characterised by an order property of the sorted keys; interpolation between two neighbours; composition with C46, C33 |
| C118 | `Lin2.contract` (both loops, one slice, gates and envelope), `setAt`, `gateOf`, `isEmptyAt` for polygons, `allGatesDefined` | invariant: every polygon is convex and contains the trajectory at the times of its slice; one slice by the flow of C87; end with a result by stability under small thresholds; the gate test by induction two by two |
| C119 | `CtcDeriv` and `CtcChain` on tubes of codac2: conversion (C93), contractor (C18, C87), conversion back, comparison of the temporal domains, intersection | a temporal domain with all its gates is determined by the set of its gates (sorted lists with the same elements), so that the domains are the same iff the user's one has all its gates; then the theorems of the conversions, of the intersection and of the contractors are composed |
| C120 | the loops of `generate_observations` with the shuffles and instants as parameters; `sqrt(dx²+dy²)` and `atan2` as interval functions that contain the exact ones | membership in filtered lists and permutations; induction on the iterations of the do-while for the number of observations and their origin |
| C121 | the model of C18 with exact interval operations | at a slice: the lowest and highest broken lines between the gates are trajectories, so the polygon (or the simple formula, when both gates are strictly contracted) is the hull; over the tube: after the forward pass every value of an output gate comes from the input gate, the backward pass keeps it and adds the converse, so a local trajectory extends to the whole domain by induction on both sides |
| C122 | the constructors and `traj_eval_vector` on the models of C01, C51 and C110; the evaluation of IBEX is a parameter which reads the time only (constructors) or gives the value at a point (trajectories) | the tube of C01 is not empty, so the evaluation rebuilds each slice; the loop over the instants is followed by induction |
| C123 | RGB/HSV conversions, hexadecimal strings, color maps (both modes), colors of a trajectory | case analysis on the largest channel and the sector of the hue; `color_eq` characterises the color by the two keys around; `reverse` through the decomposition of the reversed list; the 256 bytes checked exhaustively |
| C124 | `derivTube`, `staticContract`, `linobs` with their restricted domain | a setter applied to a slice does not change the evaluation out of it (`Tube.upd_evalAt`); invariants of the loops |
| C125 | the functions `contract(vector<Domain*>&)` of the dynamic contractors and the rows of slices of the network | induction on the loop of slices, cases on the types |
| C126 | the slices, the gates they share and the tree of synthesis as numbered objects, with the lists of the freed ones | invariant: used and freed objects are a permutation of the allocated ones, neighbours share their gate, the tree has the slices of the chain; preserved by each call |
| C127 | Domain objects with their pointer to a copy of the initial value (null, object or uninitialised); a network as the slices its domains refer to, over the memory of a tube of C126 | simulation of an abstract view (type, values, intermediate or not, lost copies) by the memory, both ways; the slices of the network are slices of the chain |
| C128 | the loop of set_component over the slices, a gate being intersected with the new value before and the old value after | induction on the slices, with the value of the previous slice |
| C129 | domains with their types, addresses, names and equality contractors; var_name with a bound on the depth of the calls | the names of vectors, then of components, then of aliases, by the depth; two unlabelled domains that are equal need any depth: induction on the depth |
| C130 | get_sign, extract_zeros, is_inside, is_outside, fast_test with its limits, test_exist_v | invariant of the scan (ranges with a change of sign, slices of unknown sign covered); intermediate values for IN; points on both sides of the line for OUT; products over two intervals take all values between two of them for MAYBE |
| C131 | `Image/Raster.lean`: `GeoMapper`, `GeoImage`, `CtcRaster::contract` | four-corner identity of the summed area table by sums over ranges; loops = first/last index by induction; cells met by the interval = integers of the difference, for any sound rounding; convexity for the smallest box |
| C132 | `Traj/FunText.lean`: `trim`, `TFunction::expr(i)`, `operator[]`, `arg_name`, `capd_str_function` | cutting at semicolons of a joined list by induction on the components; loop of the names by induction on the turns left |
| C133 | `Traj/CapdTube.lean`: loop of `CAPD_integrateODE` over the slices of all components | the forward pass of `Slice.set` in recursive form gives each slice in closed form, by induction on the slices; contiguity of the slices for the gates |
| C134 | `Traj/Rand.lean`: `RandTrajectory`, `rand_in_bounds` | invariant of the loop: the points are the draws done, in order; the codomain is their hull |
| C135 | `Tube/Envelope.lean`: `polygon_envelope` | the number of edges above a point, counted along the upper then the lower line by induction on the contiguous slices: vertical edges count for nothing, exactly one slice contains the instant |
| C136 | `Paving/Figure.lean`: `trunc_inf`, `axis_limits`, `draw_box`, `draw_paving`, `show`; a figure is the list of the shapes sent | case analysis on bounds; linear arithmetic for the ratio; induction on the paving for the shapes and the view box |
| C137 | `Ctc/PairProj.lean`: constructors and `separate` of `SepCtcPairProj`; `CtcFromSep` in `Ctc/Boxes.lean` | from the specifications of the quantified contractors; an instance without bisection shows that they can be met |
| C138 | `Tube/SliceOps.lean`: the three families of operators as setters of slices | pointwise from the enclosure of the operation; forward pass in recursive form for the slices of a tube |
| C139 | `Traj/Assign.lean`: vectors and their arrays, the copy loop in memory | invariant (each vector owns its array, nothing else allocated), induction on the copy loop and on the sequence of assignments |
| C140 | `Traj/TrajLife.lean`: the members of the trajectories and the functions in memory, one step per operation | simulation of the meaning of programs on values (`Traj/TrajLifeProofs.lean`), induction on the program |
| C141 | `Robotics/Lissajous.lean`: the loops on the instants and on the landmarks, the two functions of the data set | induction on the loop for the exact list of instants; derivatives of Mathlib |
| C142 | `Thick/FastSivia.lean`: the queue of FastSivia as paths in the tree, with its break; ThickErode, ThickDilate | invariant of the tree (labels right or not tested, but for the last) for every queue; potential of the queue for the termination |
| C143 | `Tube/TrajOps.lean`: the operators as compositions of `op=`, opposite, `set(1.)`; inflate slice by slice | inclusion at each instant; the product by [-1,1] computed for the tightness |
| C144 | `Tube/VecParts.lean`: the loops over the components | component by component, from the properties of tubes (C03, C09, C11, C50, C143) and of the indices |
| C145 | `Tube/Extreme.lean`: the loops, with comparisons false on what is not a number | invariant of each loop |
| C146 | `Thick/EqualB.lean`: `is_AsubsetB`, the test, the loop of the contractor, `NbIteration` | the answers of `FastSivia` (C142), an invariant of the queue, the rank of the boxes |
| C147 | the componentwise functions of `TubeVector` on integrals, primitives, interpolation, truncation, overlap and volume, with their asserts | from the theorems on tubes, lifted to vectors of signals; the volume by induction on the slices |
| C148 | a heap of nodes with addresses, new, delete, the constructors, the destructor, the assignment; files as lists of written values | predicate "the pointer gives this tree at these addresses", induction on the tree; injectivity of the writing, with anything after it |
| C149 | on the heap of C148: the copy constructor and operator= of Paving, reset_paving; the flags on a tree | the addresses of a copy are new (invariant on the next free address), induction on the depth |
| C150 | `root` of a trajectory with the NaN of `std::pow` as a distinct result; the unary functions of trajectories (C55) and tubes (C09) | the value at a sampled instant is `f` of the value of `x`, which is in the tube; linear functions commute with the interpolation |
| C151 | the constructors of `TubeVector` on lists of tubes, from those of `Tube` | `set(codomain)` gives exactly the functions with values in the codomain; the lists are transposed component by component (C77); unions with trajectories (C39) |
| C152 | `load_data` of the Redermor: loop over the lines, trajectories of the data, inflated tubes, function of the velocities, primitives, depth, file of a former call | induction on the lines; interpolation of the data (C37), tubes of trajectories (C151), inflation (C144), functions of tubes (C51), primitives over the reals (C81) |
| C153 | `load_data` of the Lissajous data set: tubes of the two functions, inflation of the velocities | tubes of functions (C122), slices common to all the components, inflation (C144), derivative of the curve (C141) |
| C154 | constructors, `resize`, arithmetic and inflation of the matrices of codac2, stored by columns | loops of assignments as a function on lists of pairs of indices; index of a pair in the order of the rows; injectivity of the index by columns |
| C155 | `cart_prod` (dynamic and static), `subvector`, `put` of codac2 | writes of a block of a column at an offset (comma initializer of Eigen) as a list equality; induction on the operands |
| C156 | `&` and `\|` of matrices of intervals, conversions of matrices | loops over the pairs of indices, each pair met once; equality of the storages |
| C157 | `ThickPoint::aligned`, `push`, `bounds_pts`, `Polygon::center` | inclusion of the operations; cases on the bounds; hull of the corners; the mean of the vertices by induction on the segments of the hull; witness for three vertices |
| C158 | `ThickBox` (construction), `subset_ext`, `inner_box`, `lb`, `ub`, `inter`, `is_empty` | induction on the dimension over the results of C43; witnesses for the three failures |
| C159 | `ThinInverse`, `ThinfIn`, `ThickfIn`, `ThickTranslateInBox`, `ThickSector`, `ThickFunction::eval` | the members of the thick box built from the two evaluations (C158), `is_inside` (C43); the value of a half-plane is between its extrema over the positions; witness for crossed bounds |
| C160 | `Trajectory::primitive(c, dt)` | invariant of the loop (instants, trapezoids); the loop ends in an Archimedean field; bound of the error of a trapezoid, summed over the samples |

## Trusted base

* Lean's kernel, and the axioms `propext`, `Classical.choice`, `Quot.sound` (no other; see the audit section).
* The reading of the C++ source: each definition cites the lines it models.
* IBEX (external): set operations exact; arithmetic operators have the inclusion property; bisectors
  return two boxes whose union is the argument.
* Not modelled: floating-point rounding of *times*, memory management, graphics, parsing of formulas,
  concurrency of `CtcCN`'s callers, file-system failures.

## Disagreements between the code and the properties

Each is proved on a concrete witness in the model (theorem in parentheses). The corresponding property is kept as stated and is
`partial` in the manifest.

| where | what happens |
|-------|--------------|
| `Tube(tdomain, timestep)` | never returns when `lb + timestep` is rounded to `lb` (C01_absorbed_step_fails) |
| `Tube::invert` | search interval reduced to the lower bound of a slice: the previous slice is used, the instant is lost (C06_invert_fails) |
| `Tube::is_subset` | compares slice by slice, wrong when the slicings differ (C10_is_subset_fails) |
| `Tube::truncate_tdomain` | strictly inside a slice, the new final gate is the one of the old end of the slice (C11_truncate_fails) |
| `Tube::integral([t1],[t2])` | wrong for overlapping `[t1]`, `[t2]` (C13_integral2_fails) |
| tree synthesis | null bound in a partly covered slice (C14_tree_integral_fails); stale integrals and bounds after an update (C15_*_fails) |
| `CtcDeriv` | domains beyond `BOUNDED_INFINITY` lose solutions or grow (C18_*_fails) |
| `CtcEval` | the value is contracted with each inversion piece, not with their union (C19_eval_fails); slicing not restored with propagation (C19_eval_instant_slicing_fails) |
| `CtcStatic` | with a restricted time domain, a slice which only meets it is contracted as a whole: values outside the time domain are lost (C21_restricted_domain_fails) |
| `CtcPicard` | any `delta > 0` is accepted, but the loop may never end for `delta < 1` (C22_small_delta_fails) |
| `CtcTransform` | the box is intersected with `fbwd(box)` instead of `fbwd(y)`: solutions are lost (C23_transform_fails) |
| `CtcCartProd` | an operand other than the first finds no solution: `is_empty()` (first component) stays false (C23_cart_prod_is_empty_fails) |
| `SepFixPoint` | when both sides are contracted, the pieces removed after the first contraction are given to the wrong side (C35_fixpoint_fails) |
| `SepCtcPairProj` | the constructors taking a `SepCtcPair` or a `Sep` leave `ctcExist` and `ctcForAll` uninitialised, `separate` follows them (not modelled) |
| `SIVIA` (contractor, non-regular) | a contracted box which is flat (zero width): the closed difference of IBEX gives back the whole box as outside, solutions included (C29_out_flat_fails, for a difference with the closure semantics of IBEX) |
| `SIVIA` (separator, regular) | a box whose contraction is empty in a component other than the first is neither kept nor labelled (C30_cover_fails) |
| `SIVIAPaving::compute(f, y)` | a function undefined on the box evaluates to the empty set, which is a subset of `y`: the box is labelled IN (C32_function_fails) |
| `Paving` copy | keeps the root of the original: connected subsets of the copy contain leaves of the original (C33_copy_fails) |
| `Paving::get_connected_subsets` | on a sub-paving, returns leaves outside it (C33_subpaving_fails) |
| `TubePaving::compute(Tube)` | a leaf is labelled IN from the envelopes of the slices only: a narrower gate inside the leaf is ignored (C34_gate_fails) |
| contractor network | sub-network: always active, so called once per `contract()` chain (C26_subnet_fails, C27_subnetwork_fails) |
| contractor network | contractions below the ratio add up without triggering (C27_ratio_fails) |
| contractor network | unbounded intervals all have volume 999999 (C27_unbounded_fails), flat boxes volume 0 (C27_flat_box_fails) |
| contractor network | `contract()` takes the current volumes as references: pending checks of an interrupted propagation and changes made by `contract_ordered_mode()` are forgotten (C27_interrupted_fails, C27_ordered_mode_fails) |
| contractor network | a degenerate interval which becomes empty: 0/0 triggers nothing (C28_degenerate_fails) |
| `Trajectory(list_t, list_x)` | the codomain is left empty, so is the evaluation over the temporal domain (C36_from_lists_fails) |
| `Trajectory::operator==` | only tests that the points of the left one are in the right one: not symmetric, does not imply equal values (C38_equality_fails) |
| `Slice::contains` | bisects intervals between two consecutive floating-point numbers for ever: `EPSILON_CONTAINS` is far below their distance (C40_machine_bisection_fails) |
| `Trajectory::diff` | with a non-constant step, resamples with the first step instead of the mean one, past the end of the temporal domain (C54_variable_step_fails; the documentation only promises accuracy for constant steps) |
| `min`, `max`, `atan2` of two trajectories | sample local copies and then combine, by rank, the maps of the original trajectories (C55_min_max_fails) |
| `opThickInter` | its table is not symmetric and `[?] ∩ [0]` is empty (C41_thick_inter_fails) |
| `ThickInterval::is_disjoint` | the two comparisons are joined by `&&`: true only for intervals reduced to the same point, false for disjoint ones (C43_is_disjoint_fails) |
| `ThickInterval::is_not_subset`, `ThickBox::is_inside` | non-strict comparisons: `[0,1]` is "not a subset" of itself, and a member touching the boundary is not counted (C43_not_subset_fails, C43_is_inside_fails) |
| `ThickInterval` `&` | upper bounds are cut at the constant `1e10`; above, the result is empty (C43_inter_fails) |
| `ThickBox::is_subset(ThickBox)` | starts from `false` and uses `&=`: always false (C43_box_subset_fails) |
| `ThickDisk` | bounding box of half-width the squared radius, too small for radii below 1 (C56_disk_fails); `setParams` does not update it (C56_set_params_fails) |
| `ContractorNetwork::add_data` | the envelope is replaced by the one of the data, not intersected with it: the tube can grow (C48_fails) |
| `Tools::replace_all` | never ends for an empty search string (C49_empty_fails) |
| `CtcPolar` | `x=[0]`, `y=[0]`: empty although `ρ = 0` is a solution; `θ=[0]` with `y=[0,1]`: the division by `tan(θ)=[0]` is empty and the solution `(1,0,1,0)` is lost (C24_polar_origin_fails, C24_polar_zero_fails) |
| `TPlane::compute_detections` | a zero on the boundary of the enclosures is rejected: the loops of a robot whose position is known exactly, or whose velocity tube has a null bound, are labelled `OUT` (C46_thin_fails, C46_rest_fails) |
| `GrahamScan::convex_hull` on three points, or with aligned points | counterclockwise vertices of a minimal polygon (not claimed by the documentation, but the polygons are drawn and intersected as such) | three points are returned in the order given (`C44_order_fails`); aligned points may be kept, a stale element of the array is returned when all the points are aligned (`C44_minimal_fails` and the example after it) |
| codac2 `TDomain::sample(t, true)` where two slices already meet without gate, or at the lower bound of the domain | evaluations of the tubes unchanged | the gate takes the codomain of the next slice only (the intersection with the previous one is lost), or is unbounded at the lower bound: `C57_eval_fails` |
| codac2 `TDomain::sample(t, false)` at the lower bound of the domain | no gate | an unbounded gate is inserted: `C57_nogate_fails` |
| codac2 `TDomain::sample([t], dt)` with `dt = 0` (accepted by the assertion); `delete_gates` on a degenerate domain | ends; at least one slice | infinite loop: `C58_interval_fails`; no slice is left: `C58_delete_gates_fails` |
| Writing then reading a tube | gates not included in the envelopes around them are intersected with them (`C16_gates_fails`, exact effect in `C16_any_gates`) |
| Writing then reading a box | the dimension is converted to a `short int`: beyond 2^15 - 1 another box is read (`C17_large_box_fails`) |
| Writing then reading a trajectory built from two lists | the codomain, left empty by the constructor, is different after reading (`C17_from_lists_fails`) |
| codac2 `Tube::set(x)` when `x` is disjoint from the codomain of a neighbour not yet set | the tube becomes x | the whole tube becomes empty: `C60_set_fails` |
| codac2 `Tube::operator=` | the tube becomes a copy of the other | gates are intersected with the old codomain of the next slice, and disjoint old values empty the tube: `C61_assign_fails` |
| codac2 `x([a,b]) = v` when b is the end of the domain without gate, or after the end | the tube is set on [a,b] | the last slice is not set: `C64_end_fails`; the new slice stays unbounded: `C64_beyond_fails`; overwriting disjoint values empties the tube: `C64_disjoint_fails` |
| `ConvexPolygon::contains`, `fast_intersection`, `is_subset` | for a polygon with aligned vertices (built from three or more aligned points) a point outside may be reported inside: polygon (0,0),(3,3),(1,1), point (1,2) | `C65_aligned_fails`, `C66_aligned_fails`, `C67_aligned_fails` |
| `ConvexPolygon & ConvexPolygon` | the intersection of a point and a polygon may be a whole edge of it: `ThickEdge::contains` is true of every point for an edge reduced to a point | `C68_point_fails` |
| `ConvexPolygon + IntervalVector`, `IntervalMatrix * ConvexPolygon` | a box smaller than 1e-10 is replaced by one of its corners: points of the sum are lost (the source says "this is not reliable") | `C69_small_box_fails` |
| `Polygon::area` | negative for three points given clockwise | `C70_area_fails` |
| `Paving::get_boxes(l, val, neg_val)` | inner nodes of a `SIVIAPaving` keep the value UNKNOWN, hence `get_boxes(l, IN, UNKNOWN)` returns nothing (C72_negative_value_fails) |
| `Slice::polygon(v)` | for an empty slice, the default polygon, commented as empty, is the square [-9999,9999]² (C73_empty_fails) |
| `Tube::interpol(t, v)` | empty when `t` is the single instant where a slice starts, as `invert` (C74_interpol_fails) |
| `Tube::invert(y, v, search)` | empty when `search` is the single instant where a slice starts (C75_invert_fails) |
| `CtcEval::contract(t, z, y, w)` | when a front of the forward or backward propagation becomes empty, the next ones only keep the values of `z` and solutions are lost (C19_eval_interval_fails); when `t` meets the time domain at its first instant only, everything is set empty (C19_eval_interval_point_fails) |
| `Tube::diam(const Tube& v)` | the trajectory of diameters takes the ordinates of the vertices as instants: it is not over the time domain (C84_diam_fails) |
| `Tube::volume()` | documented as w(tdomain) times w(x(tdomain)); computed as the sum of the volumes of the slices (C84_volume_box_fails) |
| `ConvexPolygon::simplify` | when the sides around a side are exactly parallel and slanted, `ThickEdge::parallel` answers NO, the intersection does not exist and the result is the enlarged box, with 4 vertices (C86_parallel_fails) |
| `ConvexPolygon::simplify` | `min_i == 0` also means "candidate at index 0": the first candidate is overwritten by a worse one (C86_least_impact_fails) |
| `ConvexPolygon::simplify` | loses points of a polygon given in clockwise order with the flag `convex_and_convention_order` (C86_clockwise_fails; a precondition rather than a defect) |
| `ConvexPolygon::inflate` | does nothing (C86_inflate_fails) |
| `CtcLinobs::contract` | clips the tubes to [-9999,9999]: solutions outside are lost (C87_clip_fails; documented in a comment of the code) |
| `CtcLinobs::polygon_envelope` | the exponential over a slice is replaced by the hull of its values at both ends: on a long slice the envelope misses the solution (C87_rotation_fails) |
| `CtcLinobs::contract` | thick points smaller than 1e-10 are replaced by one corner: with a in [0,1e-11] from the state (0,0), CtcChain returns empty tubes although the constant zero is a solution (C87_small_fails) |
| `CtcLinobs::contract` | the envelopes are replaced instead of intersected: the result can be larger than the domain (C87_contracting_fails) |
| `OctaSym` constructor | the assertion only checks that the absolute values are between 1 and n: `OctaSym({1,1})` is accepted, and `CtcAction` with it empties boxes (C88_not_permutation_fails) |
| `CtcAction` constructor | declares the dimension 2 whatever the symmetry (codac2_CtcAction.cpp:19); read, not modelled |
| `IntervalMatrix_::bisect` | `is_bisectable()` asks for one component that can be cut, `bisect()` cuts the largest: `[2^60,2^60+256]×[0,100]` passes the first and fails the assertion of the second (C90_bisectable_fails) |
| `IntervalMatrix_::volume` | returns at the first unbounded or degenerated component: `(-oo,oo)×{0}` has volume `+oo`, `{0}×(-oo,oo)` volume 0 (C90_volume_order_fails) |
| `IntervalVector_::diff` | nothing left is `{empty box}` when x == y and `{}` when x is strictly smaller (C91_nothing_left_fails) |
| `PavingBase::boxes_list(x)` | the recursive calls drop the argument: no filtering once the paving is bisected (C92_intersect_fails) |
| `PavingBase` with dynamic size | `boxes_list()` compares with a box of size 0 (read out of bounds), `hull_box()` builds a vector of size -1 (C92_dynamic_fails) |
| `IntervalMatrix_::interior_contains` | calls `Interval::interior_contains` with an interval: does not compile if instantiated; read, not modelled |
| `to_codac2(TubeVector)` | uses the slicing of the first component only: the other components lose precision when sliced otherwise (C93_vector_fails) |
| `to_codac1` | skips unbounded temporal slices ("not supported in codac1") but the constructor of `codac::Tube` has already failed on an unbounded domain, as it does on a single instant (C93_instant_fails) |
| `SepProj` | `reconstrut_v2` gives back the whole box to `x_in` when a part of the parameters empties `x_out` (codac_SepProj.h:123-126) and the item is dropped: points that had been removed from `x_in`, then given back, may have their only witness in that item, and are lost from `x_out`. C94_outer_fails: union of four rectangles, x_out loses [0,2[ of the projection |
| contractor networks | a `double t` is known by its address: `cn.add(ctc_eval,{t,z,x}); t = 1.; cn.add(ctc_eval,{t,z,x});` does not add the second constraint, without error (C95_double_fails); the exception written for this case in `Domain::operator==` is not reached |
| sub-networks | `ContractorHashcode` of a `ContractorNetwork` does not set `m_n` (codac_Hashcode.cpp:25-31): with 0 there, `cn.add(sub_cn)` adds nothing if `cn` has a contractor (C95_subnet_fails); with other values it may read out of bounds |
| tubes in networks | the constructors of `Domain` intersect tubes, slices and tube vectors with [-99999,99999]: trajectories are lost (C96_fails) |
| `ConnectedSubset::zero_proven` | the OUT boxes around the subset are supposed without zero of f, but it is not checked that the inclusion function given to zero_proven excludes a zero on them: with (x-x+1, y) a zero is "proven" for a function that never vanishes (C97_fails). `TPlane::compute_proofs(p)` is such a use: its OUT boxes come from tests on v and on t1<t2 that f does not contain |
| `CtcLohner` | `contractStep` changes the centre `u_hat` to the one of the contracted box, but intersects `r`, which is relative to the former centre, with the box relative to the new one: in dimension 2 a solution is lost as soon as a gate restricts the enclosure (C98_fails). The propagation BACKWARD that follows FORWARD meets the gates contracted by the first one, so this is the default case |
| `CtcLohner` | only the midpoint of f(u_hat) is kept: with interval coefficients in f solutions are lost (C98_thick_fails); with contractions=0 the enclosure of the next gate is the one of the previous gate (C98_contractions_fails) |
| polynomial synthesis of tubes | the offset is computed from the ends of the slices only: with a convex upper polynomial, values inside a slice are above it, and x([t]) for [t] inside the slice misses values of the tube (C99_fails) |
| polynomial synthesis of tubes | `Slice::set*` notify the tree of SynthesisMode::BINARY_TREE only: after an update the polynomials describe the former tube (C99_update_fails) |
| polynomial synthesis of tubes | an assertion stops the program on tubes with a constant bound (C99_constant_fails) and on tubes with a slice much longer than the other ones (C99_bisect_fails) |
| `SepPolarXY` | on the box reduced to the origin, x_in and x_out are both emptied, for every sector (C100_origin_fails); the code prints "Xin and Xout are both empty" and mentions a bug in CtcPolar |
| `PdcInPolygon::test` | only the middle of the box is tested: a box that contains points inside and points outside gets YES or NO, not MAYBE (C101_box_fails), whereas a predicate of IBEX on a box is expected to hold for all its points |
| `SepPaving::Sivia` | a second call with another separator of the same set can remove points from both boxes of a node: the answer YES becomes EMPTY (C102_again_fails) |
| `SepPaving::Reunite` | called twice it answers YES for a point out of the set: after the first call the children of a node do not cover its undecided part (C102_reunite_fails) |
| `SepPaving::separate` | loses points: undecided part flat (C102_flat_fails), frontier not kept by the separator (C102_frontier_fails), box not inside the paving, EMPTY being taken as NO (C102_outside_fails), x_in different from x_out, x_in being also enlarged (C102_two_boxes_fails) |
| `SepPaving::Sivia_ops` | a flat box of the right child is emptied, and the points of the set in it get NO (C102_ops_flat_fails); max_diam equal to eps: the children of the old set are kept, wrong YES (C102_ops_eps_fails); bisect_around is empty, so that after a union the children of a node do not cover it and separate loses points (C102_ops_separate_fails) |
| `SepUnionBbox::separate` | asserts x_in == x_out, which is false for the result of another separation (C103_union_bbox_twice_fails) |
| `SepPolarXYT::contract` | atan2 is undefined at the landmark: the poses there are lost by x_in and by x_out (C104_landmark_fails) |
| `SepDiskExists::contract` | chi gives a step in {0,1}, bwd_sign inverts a sign in {-1,1}: points with a coordinate strictly inside [x0] or [y0] are lost on both sides if bwd_sign is exact (C105_inside_fails); only one component of the box may then be empty |
| `ThickPaving::contains`, `ctcOutside`, `ctcInside` | the parts that are flat are skipped: a flat box gets the answer EMPTY, or is emptied (C107_contains_fails, C107_contractors_fails) |
| `PNode::load` | the box is built with `IntervalVector(size, bounds[0][0])`, every component is the point of the first lower bound (C108_boxes_fails) |
| `ThickPaving::Intersect_fct` | with two directions or more in which Xm and Xp meet, but not all, the projections are tested one by one, which does not say that the boxes cover their product (C109_directions_fails) |
| `ThickPaving::Inside2` | a flat box meets no leaf, the answer is then OUT (C109_flat_fails) |
| `operator*(Matrix, TrajectoryVector)` | the result is created with `x.size()` components instead of the number of rows: any non-square matrix violates an assert (C110_matrix_fails) |
| `vecto_product(TrajectoryVector, Vector)` | only the instants of the first component are used (C110_cross_fails) |
| `TrajectoryVector::operator*=(const Trajectory&)` and the like | an operand which is a component of the vector is changed during the loop (C110_assign_fails) |
| `TubeVector::operator*=(const Tube&)` and the like | the operand is a reference: with a component of the vector, the next components use its new value (C111_assign_scalar_fails) |
| `TubeVector::resize` | `m_v_tubes[0]` of a default-constructed vector is a null pointer (C111_resize_fails) |
| `TubeVector::max_gate_diam(t)` | `t` is not set when all the gates have the diameter 0 (C111_max_gate_diam_fails) |
| `Tube::diam(true)` | on a slice between two consecutive numbers, the diameter of the first gate is replaced (C111_diam_fails) |
| `TubeVector::diag` | only the instants of the first component are used: wrong between them when the slicings differ (C111_diag_fails) |
| `CtcCN::contract` | only intermediate variables are reset: a constant, or an interval or tube held outside of the network, keeps the contractions due to the previous boxes (C112_constant_fails); the test of the class uses a tube in this way, with one call only |
| `CtcPicard::guess_kth_slices_envelope` | no limit on the number of iterations: when the enclosures do not converge, only the overflow of the bounds stops the loop (C52_unbounded_fails) |
| `CtcEval::contract(Interval& t, IntervalVector& z, …TubeVector& y…)` | z is intersected with the values of y on each interval of the inversion instead of their union: solutions are lost (C113_const_fails, C113_interval_fails) |
| `CtcEval::contract(Interval& t, IntervalVector& z, TubeVector& y, TubeVector& w)` | when t gets reduced to one instant between two components, the components end with different slicings although the slicing is to be preserved (C113_slicing_fails) |
| `shorter_dist_to_walls` | a wall along the bearing is not seen: division 0/0 (C114_along_fails) |
| `shorter_contact_to_walls` | the bearing is read without a value when no wall is seen; only 63 bearings are tried (C114_contact_fails) |
| `TPlane::compute_proofs` | leaves are `OUT` because of velocities while the inclusion function still contains zero there; the degree of such a subset is not meaningful: a loop is proven for a robot in translation at constant speed (C115_fails) |
| `ConnectedSubset::zeros_number` | returns 0 (no zero) on a subset that touches the border of the paving, where the degree is not computed (`C116_border_fails`); counts a zero that does not exist when the enclosure of an `OUT` box contains zero (`C116_separation_fails`); bisects the boxes of the subset, so that the same call done again fails on the assertion of `Paving::bisect` (`C116_twice_fails`) |
| `TPlane::traj_loops_summary` | in a proven loop without sample after some time, the summary falls below 1, and it exceeds 1 before the loop where there is none (`C117_proven_fails`); before any detection, `sample(0)` is called (`C117_no_detection`) |
| `TDomain::all_gates_defined` (codac2) | the first element is not tested: a domain of two slices without any gate is accepted, the contractor then stops on an assertion (`C118_gates_fails`) |
| `codac2::CtcLinobs::contract` | envelopes are replaced instead of intersected (`C118_contracting_fails`); thick points under 1e-10 empty the tube (`C118_small_fails`); the versions on vectors of domains and on tubes of the first version have no effect |
| `CtcDeriv::contract(codac2::Tube…)`, `CtcChain::contract(codac2::Tube…)` | the result is intersected with `operator&=`, which asserts that both temporal domains are the same; `to_codac2` puts a gate at each bound of the slices, so that the assertion fails for a tube without gates (`C119_gates_fails`) |
| `DataLoader::generate_observations` (trajectory) | the do-while loop makes one attempt for `nb_obs = 0` (`C120_none_fails`); the range and bearing use the middle of the box of the landmark while the observation gives the box (`C120_box_fails`) |
| `DataLoader::generate_observations` | `atan2(…) - heading` is in `[-2π,2π]` and compared with the visible angles without reduction modulo `2π` (`C120_turn_fails`) |
| `Tube(const Tube& x, const TFnc& f, int)` | empty when `x` is empty somewhere, although `x` only gives the slicing (C122_copy_fails) |
| `TFunction::traj_eval_vector` | evaluated at the instants of `x[0]` only (C122_instants_fails); with `nb_var() == 0` writes `x(t)` out of a vector of size 1 (C122_no_variable_fails) |
| `ColorMap::color`, HSV mode | `if(fabs(hsv_lb.h - hsv_ub.h) > 180.) hsv_lb.h += 360.`: right only when the first hue is the smaller one. From hue 350 to hue 10 the first becomes 710 and the hue turns by 700 degrees (`C123_hue_fails`), and `reverse()` changes the colors (`C123_reverse_hsv_fails`) |
| `DynCtc::restrict_tdomain` | documented for all dynamic contractors ("limits the contractions to the specified temporal domain"): ignored by `CtcDelay`, `CtcPicard`, `CtcLohner` (C124_delay_fails); `CtcLinobs` clips the whole tubes first (C124_linobs_fails) |
| `CtcDeriv` in a network | `add(ctc_deriv, {x, v})` does not compare the sizes of x and v: with a tube and a vector of three tubes it contracts x with the second component as derivative, and the first component with the third one (C125_network_sizes_fails) |
| `CtcStatic` in a network | without time it is not inter-temporal, so the network breaks tubes down into slices, which `CtcStatic::contract(vector<Domain*>&)` refuses: every run throws (C125_static_fails) |
| `CtcDeriv`, `CtcEval` | the size of the list of domains is tested after the first elements are read (C125_deriv_short_fails, C125_eval_empty_fails); the exception of CtcDeriv may come after some slices are contracted (C125_deriv_late_fails) |
| `Tube::operator=`, `Tube::truncate_tdomain` | the slices are deleted before the synthesis tree, whose destructor writes in its slices (`m_slice_ref->m_synthesis_reference = nullptr`): write in freed memory for every tube with a tree (C126_assign_fails, C126_truncate_fails) |
| `Tube::remove_gate`, `Tube::merge_similar_slices` | the tree keeps the deleted slice: wrong `nb_slices()`, pointer to a deleted slice, and freed memory accessed when the tree is deleted (C126_merge_fails) |
| `Tube::operator=` | `x = x` reads the slices it has deleted (C126_self_assign_fails) |
| `Tube::enable_synthesis` | changing the mode directly from a tree to polynomials, or the contrary, leaks the former object (C126_leak_fails) |
| `Domain::reset_value` (tubes), `ContractorNetwork::reset_interm_vars` | the initial value is assigned to the tube, which deletes its slices: the domains of the slices and their contractors in the network refer to freed memory, read by the next `contract()` (C127_reset_fails) |
| `Domain::Domain()` | `m_init_i_ptr` is not initialised and is deleted by the destructor (C127_default_fails); `ContractorNetwork::add` is safe only because the default domains receive domains of slices at once |
| `Domain::set_ref_values`, `Domain::operator=` | the former copy of the initial value is not freed (C127_leak_fails); the values allocated by constructors (`m_i_ptr`, ..) are never freed (todo in the code) |
| `ContractorNetwork` | tubes whose slices are removed after being added: freed slices are read (C127_change_fails; todo in codac_Domain.h:27); slices added by `sample` are ignored by the contractors, and adding the CtcDeriv of the network again does nothing (C127_sampling_fails) |
| `TubeComponent::set`, `operator=` (codac2) | a gate is intersected with the former value of the slice after it: setting `[2,3]` on a component equal to `[0,1]` empties it (C128_set_fails) |
| `Domain::var_name`, `print_dot_graph` | two equal domains without label call each other forever: after `subvector` on a vector without name, or for a subvector of a subvector (C129_subvector_fails, C129_subsubvector_fails) |
| `Domain::var_name` | component 2 of `x1` and component 12 of `x` have the same name (C129_distinct_fails); a name containing "?" is replaced (C129_question_fails) |
| `Domain::is_component_of` | always false for the components of a tube vector: they are not named after it |
| `SweepTest::test` | OUT for a box with a point of an edge that is seen: `get_sign` takes an interval with a zero bound as signed (C130_edge_fails) |
| `SweepTest::fast_test` | the limits left to the caller are meant to be enlarged by one slice; the first slice is lost instead (C130_limits_fails) |
| `SweepTest::test_exist_v` | MAYBE although no state in the slice sees the point (C130_maybe_fails) |
| `CtcRaster::enclosed_pixels` | the count of an image of 2^32 pixels of value 1 is 0 in an `int`: the whole box is emptied (`C131_overflow_fails`) |
| `GeoMapper` constructor | its `bbox` has one cell too many on each axis: `world_to_grid` accepts boxes outside the image and its assertion fails (`C131_mapper_fails`) |
| `CtcRaster::contract` | with rounded sums the box of the image is larger than the image: a box in the difference makes the assertion of `world_to_grid` fail (`C131_rounding_fails`) |
| `Tube::primitive` | a primitive beyond the largest `float` is lost: `CtcDeriv` clips to `BOUNDED_INFINITY` (`C81_bound_fails`) |
| `TFunction::expr(i)` | first and last characters removed even when they are not brackets: `sin(x)` gives `in(x` (`C132_scalar_fails`); cuts at the semicolons inside a component (`C132_nested_fails`) |
| `TFunction::operator[]` | the text of the whole function is kept by the component (`C132_component_fails`) |
| `capd_str_function` | one comma too many when `t` is the last argument (`C132_last_t_fails`); index over scalar variables used for arguments (`C132_vector_fails`) |
| `CAPD_integrateODE` | gates are never evaluated at an instant: the tube at the initial time is the enclosure on the first slice, not the initial condition (`C133_initial_fails`); `delete v_s` for an array |
| `RandTrajectory` | the point at the end may be missing with rounded additions (`C134_last_point_fails`), endless loop for an absorbed step (`C134_endless_fails`) |
| `Tube::polygon_envelope` | no vertex as soon as one gate is empty, though no slice is (`C135_empty_gate_fails`) |
| `Figure::trunc_inf` | empty interval for a finite bound beyond 99999 with an infinite one (`C136_trunc_fails`) |
| `VIBesFig::axis_limits` | same_ratio ignored on a new figure (`C136_ratio_first_fails`) |
| `VIBesFig::draw_box` | unbounded boxes are silently not drawn: leaves of pavings are missing (`C136_unbounded_fails`) |
| `SepCtcPairProj` | two constructors leave `ctcForAll` and `ctcExist` not set: `separate` and the destructor follow them (`C137_constructors_fails`); `nb_var` is the full dimension (`C137_nb_var_fails`); `vars.remove` out of range |
| `Slice::operator+=` (and -=, *=, /=) | applied to the slices of a tube, the gates between slices are changed twice (`C138_pass_fails`) |
| `TrajectoryVector::operator=`, `TubeVector::operator=` | self-assignment deletes the components and leaves default ones (`C139_self_fails`) |
| `Trajectory::sample` | `m_function` is deleted and not set to null: the next assignment of a trajectory by function deletes it again (`C140_sampled_fails`) |
| `Trajectory::operator=` | self-assignment of a trajectory by function reads the deleted function (`C140_self_fails`); points assigned to it leave its function in memory (`C140_leak_fails`) |
| `DataLoaderLissajous::get_observations` | `nb_obs` counts the instants, not the observations (`C141_number_fails`) |
| `DataLoaderLissajous::load_data` | the time step which is given is ignored: slices of 0.01 (`C153_step_fails`) |
| `ThickPaving::FastSivia` | a whole box is labelled `IN` when its middle is in the set, and the boxes left in the queue keep the label `MAYBE` (`C142_labels_fails`) |
| `TubeVector::put` | nothing is asserted on the temporal domains: a vector without a common temporal domain can be made (`C144_put_domain_fails`) |
| `TubeVector::steepest_slice` | the null pointer for a vector of tubes whose gates are empty (`C145_vector_fails`) |
| `TubeVector::overlaps` | The sizes are not compared: the last components of a longer operand are ignored, and a shorter operand is read out of bounds (`C147_overlaps_sizes_fails`) |
| `PSetNode::operator=`, `PNode::operator=` | The argument is `const &&`: its pointers are copied and not cleared. After `x = std::move(y)` or `x = f()` the nodes are deleted twice (`C148_assign_fails`); the former nodes of `x` are leaked (`C148_assign_leak_fails`) |
| `PSetNode::load` | The bounds are read into the address of the pointers: undefined behaviour for every file of a paving with a component (`C148_load_fails`) |
| `Paving::operator=` | The former sub-pavings are not deleted (`C149_assign_leak_fails`); `x = x` makes `x` a leaf (`C149_assign_self_fails`). `TPlane::operator=` (codac_TPlane.cpp:71-90) has the same form |
| `Paving(const Paving&)` | `m_root` of a copy is the root of the original: a dangling pointer when the original is deleted (`C149_root_fails`) |
| `f(x)` on a trajectory | Linear interpolation between the images of the samples: `x` in `T` does not give `f(x)` in `f(T)` between the samples (`C150_between_fails`) |
| `root(Trajectory, p)` | `std::pow(v, 1./p)` is a NaN for `v < 0`, also for odd `p`, where `root` of an interval contains the real root (`C150_root_fails`) |
| `DataLoaderRedermor::load_data` | once the file of a former call exists, its tubes are returned whatever the time step is; the temporal domain which is given is only tested by an assertion (`C152_cache_fails`) |
| codac2 `IntervalMatrix_::operator+=`, `operator-=`, `inflate` | the sizes of the operands are not compared, and the assertions of Eigen are disabled by codac2_eigen.h: with different sizes known at run time, coefficients are read at wrong places or outside of the storage (no result in the model) |
| `Polygon::center` | the sum of the vertices is multiplied by the number `1. / n`, rounded when `n` is not a power of two: for the vertices `(0,0)`, `(1,0)`, `(0,1)` the box is one point and it is not the mean of the vertices (`C157_center_fails`) |
| `ThickBox::inter` | an upper bound above the constant `1e10` of the thick intervals makes the intersection of a thick box with itself empty (`C158_inter_fails`) |
| `ThickBox::subset_ext` | the header says that the flag is true when some component is empty; the code sets it to false (`C158_flag_fails`) |
| `ThickBox(lb, ub)` | with `lb = [0,5]`, `ub = [1,2]` the thick box is empty, although `[0,1]` has its bounds in them (`C158_corners_fails`) |
| `ThickfIn::test` | when the evaluations of the two functions overlap too much (`x - x` for the lower bound, on `[0,1]`, and `1/2` for the upper one), the thick box is empty, its superset is in any box, and the answer is IN for `y = [100,101]` (`C159_thick_fails`) |
| `x += y`, ... | for `x` defined by a function and `y` by a map, the computed map is ignored by the evaluation of `x` (C55_assign_analytic_fails) |
| `Trajectory::shift_tdomain` | the header says that the new temporal domain is `[t0-a, tf-a]`, the code adds `a` (modelled as the code) |

## What is modelled

| files in /repo/src/core | modelled | not modelled |
|------|------|------|
| `domains/slice/codac_Slice.cpp`, `domains/tube/codac_Tube.cpp` | slices, gates, sampling, evaluation, inversion, setters, merging, truncation, shift, operators, comparison, integrals, `interpol(t)` | `Tube::eval`, TubeVector wrappers, display |
| `domains/tube/codac_TubeTreeSynthesis.cpp` | in full | |
| `contractors/dyn/codac_CtcDeriv.cpp` | slice and tube versions, polygon box in exact arithmetic, half-bounded derivatives (`IArith.infZero`: the product of an infinite number by `[0,0]` is the empty set or `[0,0]`, the theorems hold for both) | vertices made of NaN (empty gate of a non-empty slice) |
| `contractors/dyn/codac_CtcEval.cpp` | const version, instant and interval versions with derivative | vector versions |
| `contractors/dyn/codac_CtcDelay.cpp` | scalar and vector versions | the exceptions on domain types |
| `contractors/dyn/codac_CtcStatic.cpp` | in full (time domain restriction, dynamic time) over any static contractor | |
| `contractors/dyn/codac_CtcPicard.cpp` | in full for functions which are not inter-temporal: Picard loop, both directions, sampling of unbounded slices, slicing restored | inter-temporal functions (no such function is built by the library), overflow of the guess to infinity |
| `cn/codac_ContractorNetwork*.cpp`, `codac_Contractor.cpp`, `codac_Domain.cpp` | queue, flags, triggering, volumes, `contract`, ordered mode, reset, `add`, IBEX/equality/component contractors | hash codes (contractors are compared by identity), `replace_var_by_dom`, graph export, `T_EQUALITY` on boxes and tubes, the state of a sub-network between two calls |
| `contractors/static/codac_CtcUnion.h`, `codac_CtcBox.cpp`, `codac_CtcCartProd.cpp`, `separators/codac_CtcTransform.cpp`, `codac_QInterProjF.cpp`, `codac_SepBox.cpp`, `codac_SepTransform.cpp`, `codac_SepFixPoint.cpp` | in full, over arbitrary operands; `IntervalVector` operations and `IntervalVector::diff` of IBEX assumed | `SepCtcPairProj` (IBEX `CtcForAll`, `CtcExist`), `SepFunction` (IBEX) |
| `sivia/codac_sivia.cpp` | both loops, both modes, parameter box; IBEX `LargestFirst` and `diff` as parameters with specifications, and concrete instances | colours and display |
| `paving/codac_Paving.cpp`, `codac_SIVIAPaving.cpp` | tree, `compute` (function, contractor, separator), `get_boxes`, neighbours, flags, connected subsets | `ConnectedSubset` methods, memory management, display |
| `paving/codac_TubePaving.cpp`, `domains/tube/codac_TubeVector.cpp:420-569` | both `compute`, both `TubeVector::invert` without derivative | inversions with derivative |
| `variables/trajectory/codac_Trajectory.cpp`, `codac_Trajectory_operators.cpp`, `arithmetic/codac_traj_arithmetic_scalar.cpp` | maps of values: constructors, evaluation, setters, truncation, shift, sampling, `make_continuous`, `primitive(c)`, `diff`, `==`, all arithmetic | trajectories defined by a `TFunction` (except in arithmetic), `TrajectoryVector`, `RandTrajectory`, `primitive(c, dt)` |
| `domains/tube/codac_Tube.cpp:138-191`, `Slice::contains`, `Tube::contains`, `x \|= traj` | tubes from one or two trajectories, union with a trajectory, membership test with its bisection | |
| `unsupported/thickset/codac_ThickBoolean.h`, `codac_ThickInterval*`, `codac_ThickBox*`, `codac_ThickTest.cpp` | tables, thick intervals, thick boxes, `ThickAnd`/`Or`/`Inter`/`QInter`, `ThickDisk`, `is_inside`/`ThickfIn` | `ThickSector`, `ThinfIn`, `ThickTranslateInBox`, `sweepTest`, `ThickPaving`, `opInterLB`/`UB` |
| `cn/codac_Domain.cpp:846-905` | `add_data` of a tube, over sequences of calls | the queuing of contractors at line 900, the vector version (component by component) |
| `tools/codac_Tools.cpp:22-35` | `replace_all` | `trim`, `rand_in_bounds` |
| `contractors/static/codac_CtcDist.cpp`, `codac_CtcSegment.cpp`, `codac_CtcPolar.cpp` | in full, recursion of `Catan2` included; IBEX `sqr`, `sqrt`, `bwd_sqr`, trigonometric functions, `CtcFwdBwd` as parameters with specifications; no computed bound lies between `π/2` and the upper bound of `HALF_PI` | `NaN` and overflow |
| `robotics/loops/codac_TPlane.cpp:108-213`, `Tube::eval`, `Slice::eval` | `compute_detections` over sequences of calls, with or without velocities; no overflow of the interval operations, bounded tubes | `compute_proofs`, `traj_loops_summary` |
| `GrahamScan::convex_hull`, `orientation`, `dist`, `ThickPointsSorter`, `ThickPoint::remove_identical_pts`, `aligned` on points | yes, exact arithmetic (`Verif/Geometry/Graham.lean`) |
| `2/domains/tube/codac2_TDomain.cpp`, `codac2_TSlice.cpp`, `Tube::eval(t)` of codac2_Tube.h | constructors with step, `iterator_tslice`, `sample` (both), `delete_gates`; each tube is a codomain per slice | the pointers from slices to tubes, `all_gates_defined`, printing |
| `serialize/codac_serialize_{intervals,trajectories,tubes}.cpp`, `Tube::serialize`, `Tube::deserialize` | `Verif/Serialize/Model.lean` | bytes; version 2; analytic trajectories, beacons and the opening of the file are not modelled; `NaN` is not modelled |
| `src/core/2/domains/tube/codac2_Slice.h`, `codac2_Tube.h`, `codac2_TubeEvaluation.h` | `Verif/C2/Tube.lean`, `Verif/C2/Assign.lean`: `set`, gates, `is_empty`, `Tube::set`, `=`, `&=`, `eval(Interval)`, `x([t]) = v` for tubes of intervals | self-assignment, boxes (component-wise), `inflate`, `contains`, `invert`, `TubeComponent`, conversions with codac 1 |
| `codac_ConvexPolygon.cpp`, `codac_Polygon.cpp`, `codac_ThickEdge.cpp`, `codac_ThickPoint.cpp`, `codac_polygon_arithmetic.cpp` | `Geometry/Polygon`, `Geometry/OpsModel`: constructors, edges, box, contains, is_subset, intersects, fast_intersection, `&`, `|`, `+`, `-`, `*`, `==`, `!=`, area, for vertices with exact coordinates. Not modelled: simplify, rotate, inflate, thick points as arguments of contains, rounding |
| `domains/slice/codac_Slice_polygon.cpp`, `Slice::interpol`, `Slice::invert`, `Tube::interpol`, `Tube::invert` with a derivative | `Verif/Tube/PolyModel.lean`, exact arithmetic | half-bounded derivatives, unbounded envelopes, empty gates of a non-empty slice (NaN vertices); the two extra vertices against rounding |
| `TFunction::eval_vector` (tubes, interval, slice), `TFnc::eval_vector`, `DelayTFunction::eval_vector` | Tube/Func.lean | the function is a parameter (inclusion function) |
| `Tube(v_tdomains, v_codomains)`, `bisect`, `hull`, `overlaps`, `lb`, `ub`, `eval(Interval)`, `largest_slice`, `max_diam`, `max_gate_diam`, `volume`, `diam(v)`, `primitive` | Tube/Misc.lean | exact widths and sums; infinity is `none` |
| `CtcFunction::contract` on tubes, `CtcConstell::contract` | Ctc/Function.lean | `CtcFwdBwd` is a parameter |
| `ConvexPolygon::simplify`, `rotate`, `inflate` | Geometry/Simplify.lean, Props/Simplify.lean | exact arithmetic; the new vertex is the exact intersection; products by the constants 0 and 1 of the matrices done |
| `CtcLinobs`, `CtcChain` (codac1 tubes) | Ctc/LinobsModel.lean | the exponential of Eigen is a function of time with `E' = E A`; exact arithmetic. Not modelled: the overloads that only forward their arguments, `DomainsTypeException`, the codac2 overloads of CtcChain |
| `OctaSym`, `CtcAction` | C2/Action.lean | exact arithmetic; the integer overflow of `abs` is not modelled; an access out of bounds is `none` |
| codac2 `IntervalMatrix_`, `IntervalVector_` | C2/BoxModel.lean, C2/PavModel.lean | list of components in order of storage; exact arithmetic; `Interval::diff` and `bisect` (IBEX) are parameters; not modelled: overlaps, interior_*, inflate, products |
| codac2 `Paving` | C2/PavModel.lean | tree with both sons or none; operations through a path instead of a pointer |
| `to_codac1`, `to_codac2` | C2/Convert.lean | bounded times; component by component for vectors; not modelled: polygons |
| `SepProj` | Ctc/SepProj.lean | assertions enabled; one iteration of `fixpoint` as in the code (`break`); not modelled: the unused `reconstrut` |
| building of contractor networks | CN/Build.lean | objects as addresses; `std::map` as a list searched for an equivalent key (the order is proved to be a strict weak order for distinct addresses); the propagation is in CN/Model.lean; not modelled: intermediate variables and their reset, links of sub-networks |
| topological degree | Paving/Degree.lean | boxes of two components; failed `assert` = no result |
| CtcLohner | Ctc/LohnerModel.lean | exact interval operations; QR decomposition and inverse = parameters; the field `z` and the operator of Domain lists are not modelled |
| TubePolynomialSynthesis | Tube/PolySynth.lean | exact numbers; least squares (Eigen) = parameter; ratio of the bisection = parameter (0.45 in IBEX); the figures drawn by the constructor are not modelled |
| SepPolarXY | Ctc/SepPolar.lean | bounded angles; M_PI and mid() are parameters; messages left out |
| PdcInPolygon, SepPolygon | Geometry/InPolygon.lean, InPolygonEx.lean | atan2, sqrt, division, mid and the difference of boxes are parameters; SepBoundaryCtc (IBEX) from the documentation; the middle of a removed box is assumed not to be on the side shared with the contracted box (not true of boxes one double wide) |
| SepPaving, PSetNode | Paving/SepPaving.lean, SepPavingProofs.lean | queues of nodes written as recursions on the tree (each node is treated with its own boxes only); `Sivia_ops` returns a flag which is not in the code; bisector, difference and middle of boxes are parameters; files, visitors, copies and moves not modelled |
| CtcHull, SepUnionBbox | Ctc/CtcHull.lean | separators, bisector and difference of boxes are parameters; numbers without rounding |
| SepPolarXYT | Ctc/SepPolarXYT.lean | real numbers; IBEX functions are parameters that keep the solutions |
| SepDiskExists | Ctc/SepDiskExists.lean | real numbers; IBEX functions are parameters that keep the solutions; the steps of the two coordinates are regrouped |
| ThickPaving | Thick/Paving.lean, Thick/PavingProofs.lean, Thick/PavingFile.lean | queues of Sivia and erode as recursions on the tree (the work on a node uses only this node); USivia, Contract_distance_gt_ThickPaving, drawings left out |
| ThickPaving::Intersect | Thick/PavingInter.lean, Thick/PavingInterProofs.lean | the assertion of Xm_inter_Xp_inside_P and the messages left out |
| TrajectoryVector | Traj/Vector.lean, Traj/VectorProofs.lean | components as trajectories defined by maps; those defined by functions, min/max/random constructors and prints left out |
| TubeVector (operators, questions, bisect, resize, hull, diag, max_gate_diam), Tube::diam(bool) | Tube/VecOps.lean, Tube/VecOpsProofs.lean | exact sums in diag, `sqrt`, next_float, previous_float as parameters; is_subset and the like, sample, inflate, interpol, steepest_slice left out |
| CtcCN, networks with variables | CN/Vars.lean, CN/VarsProofs.lean | intervals and boxes; the identity of a domain is the place of its own values; exceptions give `none` and the state they leave is not modelled |
| CtcPicard, number of iterations | Ctc/PicardEnds.lean | the same definitions as for C22 |
| CtcEval, CtcDeriv on TubeVector | Ctc/EvalVec.lean | the tubes of y and w have distinct storage |
| Wall, shorter_dist_to_walls, shorter_contact_to_walls | Geometry/Wall.lean | exact arithmetic; bearings by cosine and sine; square of the distance |
| TPlane::compute_proofs, compute_loops | Paving/TPlaneProof.lean | exact or outer interval arithmetic as a parameter |
| number of zeros on a connected subset | codac_ConnectedSubset_degree.cpp:27-36,247-281, codac_Paving.cpp:118-129 | pointers are positions in the tree; bisection of IBEX as a parameter; the determinant in an interval arithmetic given as a parameter |
| summary of the loops of a t-plane | codac_TPlane.cpp:298-347 | iterators of the map are positions in the list of the keys; the boxes of the loops are given |
| CtcLinobs on tubes of polygons | codac2_CtcLinobs.cpp:81-160, codac2_Slice.h (slices of polygons), codac2_TDomain.cpp:65-93 | bounded temporal domains; a slice is given by its position; exponential as parameter |
| CtcDeriv and CtcChain on tubes of codac2 | codac_CtcDeriv.cpp:120-126, codac_CtcChain.cpp:58-67, codac2_TDomain.cpp:248-261 | the three tubes of CtcChain are on the same temporal domain; versions on tubes of boxes (codac_CtcDeriv.cpp:128-143, codac_CtcChain.cpp:49-56) not modelled |
| simulated landmarks and observations | codac_DataLoader.cpp:68-181, codac_Beacon.cpp:19-35 | random generators are parameters; positions in the plane; the evaluation of the trajectory is a parameter; the rounding of `t_epsilon` to float is not modelled |
| `Tube(tdomain, timestep, f)`, `Tube(x, f)`, `TubeVector(tdomain, timestep, f)`, `TFunction::traj_eval_vector`, `traj_eval` | Traj/FunEval.lean | the middle of the evaluation at a point is a parameter |
| Colors and color maps | graphics/codac_colors.cpp, graphics/codac_ColorMap.cpp | `float` and `double` replaced by an ordered field; NaN ratio as a missing value; predefined maps and display not modelled |
| choice of the overload by the types of the domains | CN/Dispatch.lean | the call is represented by its domains; the options TimePropag are not represented |
| memory of tubes | Tube/Life.lean | slices chosen by index; values and times not represented; flags of the tree not represented (most accesses); the polynomials are one object |
| memory of domains and networks | CN/DomMem.lean | values not represented; contractors added slice by slice on one tube; all contractors in the queue or none; addresses never used again |
| components of codac2 tubes | C2/Component.lean | `contains` (assert(false)) and `to_codac1` (same code as C93) not repeated |
| names of domains | CN/Names.lean | addresses are numbers; the decorations of `dom_name` and the text of the graph not represented |
| explored area, SweepTest | Thick/Sweep.lean, Thick/SweepProofs.lean, Thick/SweepMaybe.lean | sequences of the same length; the lines after the first return of `test`, and the second method (not compiled in), not represented |
| Contractor of an image (Python module), `GeoMapper` of both copies | `Image/Raster.lean` | summed area table as a function of two indices, strides, `limit` flags and `checkBorder` (unused) not represented; `SepRaster` not modelled |
| Texts of functions | `Traj/FunText.lean` | strings as lists of characters; parsing by IBEX and CAPD not modelled: the image dimension is given; assertions enabled |
| Tube of a guaranteed integration | `Traj/CapdTube.lean` | the integration by CAPD and the conversions of intervals are not modelled |
| Random trajectories | `Traj/Rand.lean` | random numbers given as a sequence; `srand` not modelled |
| Polygon envelope of a tube | `Tube/Envelope.lean` | infinite vertices (unbounded slices) are a distinct outcome |
| Figures (limits, truncation, pavings) | `Paving/Figure.lean` | the viewer, colours and parameters are left out; exact arithmetic |
| Projection of a pair of contractors | `Ctc/PairProj.lean` | `CtcForAll`, `CtcExist` are parameters; `vars` is not modelled |
| Operators of slices | `Tube/SliceOps.lean` | interval operators and evaluation of trajectories are parameters |
| Assignment of vectors of trajectories and tubes | `Traj/Assign.lean` | a component is a value; a vector without array (default constructor) is not modelled |
| Memory of trajectories | `Traj/TrajLife.lean` | addresses are never used twice; evaluation in `sample` is a parameter |
| Lissajous data set | `Robotics/Lissajous.lean` | exact times; values of the trajectory and interval functions are parameters; random landmarks as in C120 |
| FastSivia, erosion and dilation of the Python module | `Thick/FastSivia.lean`, `Thick/FastSiviaProofs.lean` | pointers to nodes are paths; the test of B after setParams is a parameter; countLeaves left out |
| operators between a tube and a trajectory, inflate with a trajectory | `Tube/TrajOps.lean` | trajectories defined by values; the opposite and the division of IBEX are parameters |
| parts, sampling, values on an interval, inflation, shift of vectors of tubes | `Tube/VecParts.lean` | vectors as lists; indices are natural numbers |
| wider, steepest and last slices, index of a slice | `Tube/Extreme.lean` | slices by address for `index`; the middle of an interval is a parameter |
| translations between thick sets | `Thick/EqualB.lean` | the test of a translated paving is a parameter; `is_AsubsetB_2` (not called) is left out |
| Integrals, primitive, interpolation, truncation, overlap, volume of `TubeVector` | Verif/Tube/VecIntegral.lean | exact sums for the volume; `interpol` with an interval only |
| Lifetime and files of `PSetNode` and `PNode` | Verif/Paving/Life.lean | the value of a node (boxes) is abstract for the lifetime; in a copy the address of a node is given after those of its children; the widths of the C++ types other than pointers and doubles are left out |
| Copies, assignments, flags and reset of `Paving` | Verif/Paving/Copy.lean | the values of a node (box, value, flag, root) are copied as a whole; derived classes (`SIVIAPaving`, `TPlane`) are not modelled there |
| `root` of a trajectory | Verif/Traj/Root.lean | `std::pow` in exact arithmetic over the reals; orders `p ≥ 1` only |
| Constructors of `TubeVector` (codac_TubeVector.cpp:33-152) | Verif/Tube/VecBuild.lean | vectors are lists; the constructor with a `TFnc` is in Verif/Traj/FunEval.lean, those from files in Verif/Serialize; the initializer list is the list itself |
| `DataLoaderRedermor::load_data` (codac_DataLoaderRedermor.cpp:28-117) | Verif/Traj/Redermor.lean | the parsing of a line gives its numbers or fails; the temporal domain of the data is passed as `[t0,tf]`; the evaluation of the function of the velocities by IBEX is a parameter; the file of a former call is a value; exact arithmetic on the instants. `get_beacons` and `get_observations` (constant lists) are not modelled |
| `DataLoaderLissajous::load_data` (codac_DataLoaderLissajous.cpp:27-47) | Verif/Robotics/LissLoad.lean | evaluations by IBEX are parameters; `*truth` is not represented; exact arithmetic on the instants |
| codac2 `IntervalMatrix_`: constructors, `resize`, `lb`, `ub`, `inflate`, sums, opposite, product by a number | Verif/C2/Matrix.lean | sizes known at run time; operations of intervals (IBEX) as parameters; `mid`, `rad`, `diam`, products of matrices (Eigen) not modelled; `operator-=` with a matrix of numbers (lines 548-552) read, not modelled |
| codac2 `cart_prod`, `IntervalVector_::subvector`, `put`; `&`, `\|` of `IntervalMatrix`; `i2e`, `e2i`, `to_codac1` | Verif/C2/Vector.lean | the comma initializer of Eigen as successive blocks of rows; a vector with sizes known when compiling is the list of its components; `subvector<N1,N2>` (block of Eigen) read, not modelled; the other functions of codac2_Vector.h and codac2_Matrix.h delegate to Eigen |
| `ThickPoint::aligned`, `push`, `bounds_pts`; `Polygon::center` | Verif/Geometry/ThickPt.lean | the number `1. / n` is a parameter; `ThickPoint::center` read, not modelled |
| `ThickBox`: construction, `subset_ext`, `inner_box`, `lb`, `ub`, `inter`, `is_empty` | Verif/Thick/BoxOps.lean | `inner_box` of an empty component is not defined (bounds which are not numbers) |
| `ThinInverse`, `ThinfIn`, `ThickfIn`, `ThickTranslateInBox`, `ThickSector` (`testPlan`, `test`), `ThickFunction::eval` | Verif/Thick/Tests.lean | functions evaluated by IBEX are parameters; positions and translations with finite bounds; the cosines and sines are intervals given |
| `Trajectory::primitive(c, dt)` | Verif/Traj/PrimStep.lean | the trajectory is the function of its values; exact arithmetic |
