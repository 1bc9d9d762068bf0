import json
P=[]
def p(id,title,statement,quantifier,why,anchors):
    P.append(dict(id=id,title=title,statement=statement,quantifier=quantifier,why_tests_cant=why,anchors=anchors))
D="src/core/domains/"
p("C01","A tube built from a time step tiles its time domain exactly",
 "Tube(tdomain, timestep, codomain) terminates and yields slices that are non-degenerate, pairwise adjacent (each slice ends where the next one starts), start at tdomain.lb(), end at tdomain.ub(), are no longer than timestep (all but the last exactly timestep), with every envelope and gate equal to codomain.",
 "every bounded non-degenerate tdomain, every timestep >= 0 (with machine numbers: every timestep not absorbed by the rounded addition on tdomain), every codomain interval",
 "the number of slices is unbounded and the loop's exit depends on the arithmetic relation between width and timestep",
 [D+"tube/codac_Tube.cpp:Tube::Tube(const Interval&, double, const Interval&)"])
p("C02","Every history of tube updates keeps the tube well formed",
 "After any sequence of public updates (sample, sample with gate, set on the whole tube / one slice / one instant / a time interval, set_empty, inflate, &=, |=, +=, -=, *= with an interval, remove_gate, merge of similar slices, shift_tdomain) the tube still consists of adjacent non-degenerate slices and every gate is included in the envelopes of the slices it separates; except for shift_tdomain the time domain is unchanged.",
 "every well-formed tube and every finite sequence of updates with arbitrary arguments in range",
 "the property ranges over all histories of calls",
 [D+"tube/codac_Tube.cpp", D+"slice/codac_Slice.cpp", D+"tube/codac_Tube_operators.cpp"])
p("C03","Sampling a tube adds a gate and loses or gains no trajectory",
 "x.sample(t) leaves the set of enclosed trajectories unchanged, creates a gate at t (gate_exists(t) becomes true), adds exactly one slice if t was not already a bound and none otherwise, and a second sample(t) has no effect.",
 "every well-formed tube, every t in its time domain, every function of time",
 "quantifies over all tubes and all functions of a real variable",
 [D+"tube/codac_Tube.cpp:Tube::sample"])
p("C04","Setting an instant constrains exactly that instant",
 "x.sample(t, gate) and x.set(y, t): a trajectory lies in the tube afterwards if and only if it satisfied all previous constraints other than the former gate at t, its value at t lies in the given interval and in the neighbouring envelopes.",
 "every consistent tube, every t in the time domain, every interval",
 "quantifies over all tubes, instants and functions",
 [D+"tube/codac_Tube.cpp:Tube::sample(double,const Interval&)", D+"slice/codac_Slice.cpp:set_input_gate"])
p("C05","Tube evaluation encloses every trajectory of the tube",
 "For every trajectory f of the tube, f(t) is in x(t), and f(t) is in x([t]) for every t in [t]; evaluating on a sub-interval gives a subset of evaluating on a larger interval of the time domain.",
 "every consistent tube, every instant, every interval (including partly outside the time domain), every function in the tube",
 "quantifies over a continuum of functions, instants and slicings",
 [D+"tube/codac_Tube.cpp:Tube::operator()", D+"slice/codac_Slice.cpp:Slice::operator()"])
p("C06","Tube inversion keeps every pre-image (interval version)",
 "If f is in the tube, t is in search_tdomain and f(t) is in y, then t is in x.invert(y, search_tdomain).",
 "every consistent tube, all y, all search time domains, every function in the tube and every instant",
 "quantifies over all functions and all search intervals; the failing inputs are a measure-zero family (degenerate search on a slice bound)",
 [D+"tube/codac_Tube.cpp:Tube::invert(const Interval&, const Interval&)", D+"slice/codac_Slice.cpp:Slice::invert"])
p("C07","Tube inversion keeps every pre-image (list-of-intervals version)",
 "If f is in the tube, t is in search_tdomain and f(t) is in y, then t belongs to one of the intervals returned by x.invert(y, v_t, search_tdomain); the returned intervals are non-empty.",
 "every consistent tube, all y, all search time domains, all functions",
 "quantifies over all functions, tubes and search intervals",
 [D+"tube/codac_Tube.cpp:Tube::invert(const Interval&, vector<Interval>&, const Interval&)"])
p("C08","Tube intersection and union operators are exact or outer on trajectories",
 "With identical slicing a trajectory is in x&y iff it is in both; a trajectory of x or of y is in x|y. With different slicings a trajectory of both x and y is in x&=y and a trajectory of x or of y is in x|=y.",
 "all pairs of consistent tubes over the same time domain, whatever their slicings, all functions",
 "quantifies over all slicing combinations and functions",
 [D+"tube/codac_Tube_operators.cpp", "src/core/arithmetic/codac_tube_arithmetic_scalar.cpp"])
p("C09","Tube arithmetic is inclusion-correct",
 "If f is in x and g is in y then t -> f(t) op g(t) is in x op y for op in +,-,*, and t -> phi(f(t)) is in phi(x) for any unary function whose interval version is inclusion-correct, also when the two tubes have different slicings (common resampling) and when one operand is an interval or when assigning with op=.",
 "all tubes over a common time domain, all slicings, all functions, every inclusion-correct interval operator",
 "quantifies over all functions and all slicings",
 ["src/core/arithmetic/codac_tube_arithmetic_scalar.cpp", D+"tube/codac_Tube_operators.cpp"])
p("C10","Tube comparison and emptiness tests mean what they say",
 "If x.is_subset(y) then every trajectory of x is a trajectory of y; x.is_empty() is true exactly when no function lies in the tube; x == y implies that they enclose the same trajectories.",
 "all pairs of consistent tubes over the same time domain, whatever their slicings",
 "requires all functions and all slicing pairs; the failing pairs need differently sliced tubes",
 [D+"tube/codac_Tube.cpp:is_subset,is_empty,operator=="])
p("C11","Truncating or shifting the time domain keeps trajectories",
 "x.truncate_tdomain(t): the restriction to t of every trajectory of x is in the truncated tube, whose time domain is t. x.shift_tdomain(a): f is in x iff u -> f(u-a) is in the shifted tube.",
 "every consistent tube, every non-degenerate sub-interval of the time domain, every shift, every function",
 "quantifies over all truncation instants relative to the slicing; the failing ones are those strictly inside a slice",
 [D+"tube/codac_Tube.cpp:truncate_tdomain,shift_tdomain"])
p("C12","Removing gates and merging slices only enlarges the tube",
 "x.remove_gate(t) and x.merge_similar_slices(d): every trajectory of the tube before is in the tube after; the time domain is unchanged; remove_gate decreases the number of slices by exactly one.",
 "every consistent tube, every inner gate, every threshold and distance function, every function",
 "quantifies over all tubes and functions",
 [D+"tube/codac_Tube.cpp:remove_gate,merge_similar_slices", D+"slice/codac_Slice.cpp:merge_slices"])
p("C13","Tube integrals enclose the integral of every enclosed signal",
 "For every f in the tube with primitive F null at t0: F(t) lies between the lower bound of partial_integral([t]).first and the upper bound of partial_integral([t]).second and in integral([t]) for all t in [t]; F(b)-F(a) is in integral([t1],[t2]) for a in [t1], b in [t2].",
 "every tube, every pair of sub-intervals of the time domain, every integrable signal in the tube",
 "quantifies over all signals and all pairs of intervals, including overlapping ones",
 [D+"tube/codac_Tube.cpp:partial_integral,integral"])
p("C14","The binary-tree synthesis answers like the plain tube",
 "With a synthesis tree enabled, nb_slices, slice(id), slice(t), time_to_index, codomain and evaluation on intervals return what the plain slice list returns, and inversion through the tree is a superset of all pre-images.",
 "every tube (any number of slices), every query argument in range",
 "quantifies over all tree shapes and query positions",
 [D+"tube/codac_TubeTreeSynthesis.cpp"])
p("C15","The synthesis tree never serves stale values, whatever the interleaving of updates and queries",
 "After any interleaving of slice updates (envelope, gates) and queries (codomain, evaluation, partial integrals), a query on the tree returns what a tree freshly built from the current slices would return.",
 "every tree and every finite history of updates and queries",
 "ranges over all histories; staleness shows only for particular interleavings",
 [D+"tube/codac_TubeTreeSynthesis.cpp:update_values,update_integrals,request_values_update,request_integrals_update"])
p("C16","Tube files round-trip",
 "Writing a tube and reading it back yields the same tube (same slicing, envelopes and gates), for tubes followed by arbitrary other data in the stream.",
 "every consistent tube with fewer than 2^31 slices and every stream continuation",
 "quantifies over all tubes and byte streams",
 ["src/core/serialize/codac_serialize_tubes.cpp","src/core/serialize/codac_serialize_intervals.cpp"])
p("C17","Trajectory and box files round-trip",
 "Writing then reading an interval, an interval vector or a sampled trajectory yields the same object and leaves the rest of the stream untouched.",
 "every interval, every box of dimension below 2^15, every sampled trajectory, every stream continuation",
 "quantifies over all values and streams",
 ["src/core/serialize/codac_serialize_intervals.cpp","src/core/serialize/codac_serialize_trajectories.cpp"])
p("C18","CtcDeriv loses no solution of x' = v",
 "If x is in [x], v is in [v] and x is a primitive of v, then x is still in [x] and v in [v] after contract, for any combination of forward/backward propagation, with or without the fast mode and restricted time domain; contract only removes trajectories.",
 "all tube pairs with identical slicing, all (x,v) with x' = v, all propagation modes",
 "quantifies over all solutions of a differential constraint",
 ["src/core/contractors/dyn/codac_CtcDeriv.cpp", D+"slice/codac_Slice_polygon.cpp"])
p("C19","CtcEval loses no solution of z = y(t)",
 "If y is in [y], t in [t], z in [z] and z = y(t), then t, z, y are still enclosed after contraction.",
 "all tubes, all intervals, all solutions",
 "quantifies over all solutions; failures need an inversion with several disjoint pieces",
 ["src/core/contractors/dyn/codac_CtcEval.cpp"])
p("C20","CtcDelay loses no solution of x(t) = y(t+a)",
 "If x in [x], y in [y], a in [a] and x(t)=y(t+a) whenever both instants are in the time domain, then a, x, y are still enclosed after contract.",
 "all tubes (any slicings), all delays, all solutions",
 "quantifies over all solutions and slicings",
 ["src/core/contractors/dyn/codac_CtcDelay.cpp"])
p("C21","CtcStatic lifts a static contractor to tubes without losing solutions",
 "If a box contractor keeps every point of a set S then the dynamic contractor built on it keeps every vector trajectory whose value (with time as first component in dynamic mode) is in S at all times, with or without a restricted time domain.",
 "all box contractors sound for S, all tube vectors with common slicing, all trajectories",
 "quantifies over contractors, tubes and trajectories",
 ["src/core/contractors/dyn/codac_CtcStatic.cpp"])
p("C22","CtcPicard loses no solution of the differential equation",
 "Every solution of x' = f(x) enclosed in the slice before guess_kth_slices_envelope / contract is enclosed after, for any inclusion function of f and any inflation parameters.",
 "all inclusion functions, all slices, all differentiable solutions",
 "quantifies over all solutions of all differential equations",
 ["src/core/contractors/dyn/codac_CtcPicard.cpp"])
p("C23","Combined static contractors are contracting and lose no solution",
 "CtcUnion (keeps every point of the union of the sets), CtcCartProd (product of the sets), CtcBox (the box), CtcFromSep, CtcTransform, CtcQInterProjF: the result is a subset of the input box and keeps every point of the constraint set in the box.",
 "all lists of sound contractors, all boxes, all points",
 "quantifies over all operand contractors and boxes",
 ["src/core/contractors/static/codac_CtcUnion.h","src/core/contractors/static/codac_CtcCartProd.cpp","src/core/contractors/static/codac_CtcBox.cpp","src/core/separators/codac_QInterProjF.cpp"])
p("C24","CtcDist, CtcSegment and CtcPolar keep every solution",
 "CtcDist keeps every (a,b,d) with d = |a-b|; CtcSegment keeps every point of the segment; CtcPolar keeps every (x,y,rho,theta) with x=rho cos theta, y=rho sin theta.",
 "all boxes, all solutions, every outward-rounded interval arithmetic",
 "quantifies over all real solutions",
 ["src/core/contractors/static/codac_CtcDist.cpp","src/core/contractors/static/codac_CtcSegment.cpp","src/core/contractors/static/codac_CtcPolar.cpp"])
p("C25","A contractor network never loses a solution, whatever the propagation order or interruption",
 "If all contractors of the network keep every assignment of a solution set, then after contract() - run to the end, interrupted by the time limit at any iteration, or repeated with further contractors/domains added in between - every solution that was in the domains is still in them, and domains only shrink.",
 "all networks, all queue schedules, all interruption points, all domains",
 "ranges over all schedules and cut-offs",
 ["src/core/cn/codac_ContractorNetwork_solve.cpp"])
p("C26","The propagation queue is consistent",
 "At any point of contract(): a contractor is in the queue at most once, and it is in the queue if and only if it is marked active; after a run to the end the queue is empty and every contractor is inactive.",
 "all networks, all reachable states",
 "invariant over all histories of triggering",
 ["src/core/cn/codac_ContractorNetwork_solve.cpp:contract,trigger_ctc_related_to_dom","src/core/cn/codac_Contractor.cpp:set_active"])
p("C27","A finished propagation is a fixed point up to the ratio",
 "When contract() returns with an empty queue, for each contractor every domain it depends on has shrunk since its last call by less than the fixed point ratio; with ratio 0 and deterministic idempotent contractors, calling any contractor again changes nothing.",
 "all networks and histories",
 "quantifies over all schedules",
 ["src/core/cn/codac_ContractorNetwork_solve.cpp"])
p("C28","Emptiness discovered in a network reaches the other domains",
 "If a contractor empties a domain, the contractors attached to that domain are triggered.",
 "all networks and domains, including degenerate ones",
 "depends on volume ratios of arbitrary domains (0/0 for degenerate ones)",
 ["src/core/cn/codac_ContractorNetwork_solve.cpp:trigger_ctc_related_to_dom"])
p("C29","SIVIA with a contractor covers the initial box and discards no solution",
 "On return of SIVIA(x0, ctc, precision, ...) the union of all returned boxes is x0, boxes classified outside contain no solution (up to box boundaries in the non-regular mode), undetermined boxes are smaller than the precision, in both regular and non-regular paving modes and with an extra parameter box.",
 "all sound contractors, all boxes, all dimensions, all precisions",
 "quantifies over all contractors, boxes and depths of bisection",
 ["src/core/sivia/codac_sivia.cpp"])
p("C30","SIVIA with a separator classifies correctly",
 "Every point of x0 is in a returned box; every point of a box labelled IN is in the set; every point of a box labelled OUT is out of the set (up to box boundaries); UNKNOWN boxes are smaller than the precision.",
 "all sound separators, all boxes, all precisions",
 "quantifies over separators, boxes and recursion depth",
 ["src/core/sivia/codac_sivia.cpp"])
p("C31","SIVIA terminates",
 "For a bounded initial box and a positive precision, the bisection loop stops, whatever the contractor or separator returns.",
 "all contractors/separators returning subsets, all bounded boxes, all positive precisions",
 "termination for all inputs",
 ["src/core/sivia/codac_sivia.cpp","src/core/paving/codac_SIVIAPaving.cpp"])
p("C32","A computed paving tiles its box with correct labels",
 "After SIVIAPaving::compute the leaves cover the root box, have disjoint interiors, and leaves labelled IN (resp. OUT) only contain points inside (resp. outside) the described set.",
 "all inclusion functions / contractors / separators, all boxes, all precisions",
 "quantifies over tree depth and set descriptions",
 ["src/core/paving/codac_SIVIAPaving.cpp","src/core/paving/codac_Paving.cpp"])
p("C33","Connected subsets partition the selected leaves of a paving",
 "get_connected_subsets(val): every leaf carrying a requested value occurs in exactly one returned subset and exactly once, no other leaf occurs, each subset is connected for the neighbour relation and no two subsets are neighbours.",
 "all pavings and all value selections",
 "quantifies over all trees and label assignments",
 ["src/core/paving/codac_Paving.cpp:get_connected_subsets,get_neighbours"])
p("C34","A tube paving classifies points correctly",
 "TubePaving::compute: a leaf labelled OUT contains no value taken by a trajectory of the tube over its time domain; a leaf labelled IN only contains values that belong to the tube at some instant (for a paving of the plane time x value: at the instant of the point).",
 "all tubes, boxes, precisions",
 "quantifies over all trajectories in the tube",
 ["src/core/paving/codac_TubePaving.cpp"])
p("C35","Separators built by codac are sound and complementary",
 "For SepBox, SepTransform, SepQInterProjF, SepFixPoint and SepProj: a point removed from x_in belongs to the set, a point removed from x_out does not, and no point is removed from both.",
 "all sound operand separators, all boxes, all points",
 "quantifies over all operands and boxes",
 ["src/core/separators"])
p("C36","A trajectory is a finite map with linear interpolation, and its cached codomain is exact",
 "After any sequence of set(y,t), truncate_tdomain, shift_tdomain, sample: x(t) returns the last value set at t, the linear interpolation between neighbours otherwise; tdomain is the hull of the keys; codomain is the hull of the values.",
 "all finite histories of updates",
 "ranges over all histories",
 ["src/core/variables/trajectory/codac_Trajectory.cpp"])
p("C37","Interval evaluation of a trajectory is its exact range",
 "x([t]) contains x(u) for all u in [t] and both bounds of x([t]) are attained in [t].",
 "all sampled trajectories, all sub-intervals",
 "quantifies over a continuum of instants",
 ["src/core/variables/trajectory/codac_Trajectory.cpp:operator()"])
p("C38","Trajectory equality is an equivalence relation compatible with evaluation",
 "x == y is reflexive, symmetric, transitive and implies x(t) == y(t) for all t.",
 "all pairs/triples of trajectories",
 "asymmetry shows only on trajectories with different sample sets",
 ["src/core/variables/trajectory/codac_Trajectory.cpp:operator=="])
p("C39","A tube built from trajectories encloses them",
 "Tube(traj, timestep) and Tube(lb, ub, timestep) contain the given trajectories and x |= traj keeps former trajectories and adds traj.",
 "all sampled trajectories, all timesteps",
 "quantifies over all instants and slicings",
 [D+"tube/codac_Tube.cpp:Tube::Tube(const Trajectory&,double)", D+"tube/codac_Tube_operators.cpp"])
p("C40","Tube::contains answers YES or NO only when certain",
 "x.contains(traj)==YES implies traj(t) in x(t) for all t; ==NO implies that some traj(t) is outside x(t).",
 "all tubes, all trajectories",
 "quantifies over a continuum of instants; the bisection depth is unbounded",
 [D+"tube/codac_Tube.cpp:contains", D+"slice/codac_Slice.cpp:contains"])
p("C41","Thick booleans over-approximate three-valued logic",
 "&&, ||, ! on thick booleans contain the result of the three-valued operation on any members; & and | contain the intersection/union; the binary operators are commutative.",
 "all pairs of thick booleans",
 "complete finite table, used as base of C42 over arbitrary lists",
 ["src/unsupported/thickset/codac_ThickBoolean.h"])
p("C42","Thick tests combine soundly over arbitrary lists",
 "ThickAnd, ThickOr, ThickQInter over any list of tests that are sound for thick sets return a value that is sound for the thick set intersection/union/q-intersection.",
 "all lists of sound tests, all boxes, all q",
 "quantifies over list length and operands",
 ["src/unsupported/thickset/codac_ThickTest.cpp"])
p("C43","Thick interval predicates quantify over all members",
 "intersects/is_subset/is_not_subset/is_disjoint/is_inside on thick intervals agree with the quantification over all member intervals, and inter contains all pairwise intersections.",
 "all thick intervals, all member intervals",
 "quantifies over a continuum of members",
 ["src/unsupported/thickset/codac_ThickInterval.h"])
p("C44","The convex hull contains every input point",
 "GrahamScan::convex_hull returns vertices of a convex polygon that contains all the input points, and only input points.",
 "all finite point lists",
 "quantifies over all point configurations, in particular aligned points",
 ["src/core/geometry/codac_GrahamScan.cpp"])
p("C45","Sampling a shared temporal domain preserves all tubes built on it",
 "TDomain::sample keeps the slices of the temporal domain adjacent and leaves every tube defined on it with the same trajectories, in and out of the former domain, with or without gates.",
 "all temporal domains, all instants, all tubes",
 "quantifies over all histories of sampling",
 ["src/core/2/domains/tube/codac2_TDomain.cpp"])
p("C46","Loop detection misses no loop",
 "TPlane::compute_detections: if two instants t1<t2 of a trajectory enclosed by the tube have equal positions, then (t1,t2) is in a leaf that is not labelled OUT, hence in a detected subset.",
 "all position/velocity tubes, all trajectories, all precisions",
 "quantifies over trajectories and instants",
 ["src/robotics/loops/codac_TPlane.cpp"])
p("C47","Dimension-wise q-intersection keeps every point of enough boxes",
 "qinter_projf(boxes,q) contains every point that belongs to at least q of the boxes, and CtcQInterProjF / SepQInterProjF built on it are sound.",
 "all lists of boxes, all q >= 1, all points",
 "quantifies over all endpoint orderings, including ties",
 ["src/core/separators/codac_QInterProjF.cpp"])
p("C48","Adding data or a derivative to a domain never enlarges it",
 "ContractorNetwork::add_data keeps the already known enclosure: the updated tube is a subset of the tube before.",
 "all tubes, all data sequences",
 "ranges over all sequences of measurements",
 ["src/core/cn/codac_Domain.cpp:add_data"])
p("C49","String replacement terminates and replaces every occurrence",
 "Tools::replace_all terminates and returns the text with every occurrence of the search string replaced.",
 "all strings",
 "termination and content for all strings",
 ["src/core/tools/codac_Tools.cpp"])
p("C53","Primitive of a sampled trajectory",
 "Trajectory::primitive(c) of a trajectory given by a map of values has the same instants, starts at c, and at each of these instants its value is c plus the exact integral of the (linearly interpolated) trajectory.",
 "all finite maps, all constants, all sampled instants",
 "quantifies over all maps of values",
 ["src/core/variables/trajectory/codac_Trajectory.cpp:primitive"])
p("C54","Derivative of a sampled trajectory",
 "Trajectory::diff() of samples of a polynomial of degree at most two gives its derivative at every sampled instant; of degree at most four when there are at least nine samples.",
 "all numbers of samples, all time steps, all polynomials, all sampled instants including the first and last ones",
 "quantifies over all numbers of samples and polynomials",
 ["src/core/variables/trajectory/codac_Trajectory.cpp:diff,finite_diff"])
p("C55","Trajectory arithmetic",
 "x1 op x2, x op= y, f(x), min, max and atan2 on trajectories: at every instant at which an operand is sampled, the value of the result is the operation on the values of the operands; for + and - this holds at every instant of the temporal domain.",
 "all trajectories with the same temporal domain, with different sampled instants, all operations",
 "quantifies over all pairs of samplings",
 ["src/core/arithmetic/codac_traj_arithmetic_scalar.cpp","src/core/variables/trajectory/codac_Trajectory_operators.cpp"])
p("C56","Thick disk test",
 "ThickDisk::test on a box returns a thick boolean which holds the value of every point of the box: in the disk whatever its centre in the given box, in it for some centres only, in it for none; also after setParams.",
 "all boxes of centres, all radii, all tested boxes and all their points",
 "quantifies over a continuum of centres, radii and points",
 ["src/unsupported/thickset/codac_ThickTest.cpp:ThickDisk"])
p("C57","Sampling a shared temporal domain does not change evaluations",
  "After TDomain::sample(t, with_gates), evaluating any tube at any instant of the former domain gives the same set as before, and no gate appears when none is asked for.",
  "all temporal domains, all instants, all tubes of the domain, both values of with_gates",
  "the result depends on whether t is a bound of a slice, the bound of the domain, or has a gate; it must hold at every instant",
  ["src/core/2/domains/tube/codac2_TDomain.cpp: sample, iterator_tslice","src/core/2/domains/tube/codac2_Tube.h: eval"])
p("C58","Construction, interval sampling and gate deletion of temporal domains end and keep adjacent slices",
  "TDomain(t0_tf, dt, with_gates), sample([t], dt, with_gates) and delete_gates end, and leave adjacent slices on the same domain, with the same trajectories between the gates.",
  "all bounds, all steps accepted by the assertions, all domains",
  "termination and adjacency for every step, including the last shorter slice",
  ["src/core/2/domains/tube/codac2_TDomain.cpp: TDomain, sample(Interval), delete_gates"])

B2="src/core/2/domains/tube/"
p("C59","Setting one slice or one instant of a codac2 tube changes nothing else",
"For tubes that share a temporal domain: Slice::set(x) on a slice or gate replaces what this slice says and keeps what every other slice and gate of the tube says; x(t) = v and set(v,t) leave exactly the functions with a value in v at t, accepted by the slices around t and by the tube at the other instants, whatever t (inside or outside the domain). No other tube changes; an empty codomain empties the whole tube.",
"all temporal domains, tubes, slices, instants, values and functions",
"tests set a few values on a few tubes; the claim is about every function enclosed, every slicing with or without gates and every neighbouring tube",
[B2+"codac2_Slice.h: set, is_empty, set_empty, input_gate, output_gate",B2+"codac2_Tube.h: set(codomain,t)",B2+"codac2_TubeEvaluation.h: operator="])
p("C60","Setting a codac2 tube to a codomain gives this codomain everywhere",
"After Tube::set(x) every slice and every gate of the tube has the codomain x, whatever it was before, and the other tubes of the temporal domain are unchanged.",
"all temporal domains, former values and codomains",
"the result depends on the order of the slices and on how the old values of the neighbours meet the new one",
[B2+"codac2_Tube.h: set(codomain)",B2+"codac2_Slice.h: set"])
p("C61","Assigning a codac2 tube to another gives a tube with the same functions",
"For two tubes of the same temporal domain, after x = y the tube x contains exactly the functions of y, whatever x contained before, and the other tubes are unchanged.",
"all temporal domains, all pairs of tubes, all functions",
"the result depends on the old values of x on the slices not yet assigned",
[B2+"codac2_Tube.h: operator=(const Tube&)",B2+"codac2_Slice.h: set"])
p("C62","The intersection of codac2 tubes keeps exactly the common functions",
"For two tubes of the same slicing, after x &= y the tube x contains exactly the functions that both contained; other tubes are unchanged.",
"all temporal domains, all pairs of tubes, all functions",
"a sample of functions cannot show that none is lost, with gates modified while the loop goes on",
[B2+"codac2_Tube.h: operator&=",B2+"codac2_Slice.h: set"])
p("C63","Evaluating a codac2 tube on an interval encloses its functions and uses only the slices crossed",
"For [a,b] inside the domain, a < b, x([a,b]) contains f(t) for every function f of the tube and t in [a,b], and is the hull of the codomains of the slices and gates that start before b and end after a (or are the gate at a); outside the domain it is unbounded.",
"all temporal domains, tubes, intervals and functions",
"boundaries that coincide with bounds of slices, with or without gates, are many different cases",
[B2+"codac2_Tube.h: eval(const Interval&)",B2+"codac2_TDomain.cpp: iterator_tslice"])
p("C64","Assigning a codac2 tube on an interval constrains it on this interval and nowhere else",
"x([a,b]) = v, for a < b, never leaves the list of slices; the functions of the tube with values in v on [a,b] stay in it; every function left has its values in v on [a,b] and was accepted by the tube out of [a,b]; a function with values in v on [a,b] accepted by the tube elsewhere is in the result. Over any sequence of samplings, assignments, settings and intersections the slices stay adjacent, the domain only grows and tubes not modified contain the same functions.",
"all temporal domains, intervals (inside or outside the domain), values, functions and sequences of operations",
"depends on where a and b fall among the slices and gates, and on the values that are overwritten",
[B2+"codac2_TubeEvaluation.h: operator=",B2+"codac2_TDomain.cpp: sample",B2+"codac2_Slice.h: set"])

p("C50","Setting a tube over an interval of time constrains it there and nowhere else",
"After Tube::set(y, [a,b]) with a < b inside the domain, a trajectory is in the tube iff its values are in y over [a,b], it satisfies the former constraints of every slice and gate outside of [a,b], and its values at a and b are in the envelopes of the slices crossing these bounds. No trajectory of the tube with values in y over [a,b] is lost; set over the whole domain, the tube contains exactly the trajectories with values in y.",
"all tubes, all slicings, all [a,b] inside the domain (on or between the bounds of slices), all values and trajectories",
"depends on where a and b fall among the slices; a test samples finitely many slicings",
["src/core/domains/tube/codac_Tube.cpp: set(const Interval&, const Interval&), sample","src/core/domains/slice/codac_Slice.cpp: set"])

G="src/core/geometry/"
p("C65","contains() of a convex polygon is right about every point",
"For a convex polygon, contains(p) is never NO for a point of the polygon (the convex hull of its vertices); it is NO exactly for the points outside, MAYBE exactly for the points of its edges, YES exactly for the others.",
"all convex polygons (either orientation, vertices on edges allowed) and all points",
"ray tracing goes wrong on particular positions: a ray through a vertex, along an edge, tangent to the polygon",
[G+"codac_ConvexPolygon.cpp: contains",G+"codac_ThickEdge.cpp: operator&, proj_intersection"])
p("C66","fast_intersection() of a polygon and a box loses no common point",
"The box returned by ConvexPolygon::fast_intersection(x) contains every point of the polygon that is in x, is included in x and in the box of the polygon, and is the smallest such box.",
"all convex polygons, all boxes (bounded or not, degenerated, empty), all points",
"the result is assembled from the crossings of edges and sides; a test checks a few positions",
[G+"codac_ConvexPolygon.cpp: fast_intersection",G+"codac_ThickEdge.cpp: operator&"])
p("C67","is_subset() of polygons is right",
"p.is_subset(q) is NO exactly when a point of p is not in q; it is YES exactly when p is a subset of q and no vertex of p is on an edge of q.",
"all pairs of convex polygons",
"rests on contains() for arbitrary points",
[G+"codac_ConvexPolygon.cpp: is_subset, contains"])
p("C68","The intersection of two convex polygons is the set of their common points",
"p & q is a convex polygon that contains every common point of p and q, and nothing else; intersects() answers NO exactly for disjoint polygons and never YES.",
"all pairs of convex polygons, with parallel or collinear edges, shared vertices, one inside the other or disjoint",
"the vertices of the result come from three cases of crossing edges; a lost crossing silently loses a part of the set",
["src/core/arithmetic/codac_polygon_arithmetic.cpp: inter_thickpoints, operator&",G+"codac_ConvexPolygon.cpp: intersects, ConvexPolygon(const vector<ThickPoint>&)",G+"codac_ThickEdge.cpp: contains, parallel, proj_intersection"])
p("C69","Unions, sums, opposites and products of polygons are right",
"A polygon built from points or boxes is their convex hull; p | q is the convex hull of both; -p, p + v, p - v, v - p are the sets of opposites, sums and differences of their points; m * p contains the images of the points of p by the matrices in m. Each result is again a convex polygon.",
"all convex polygons, boxes and interval matrices",
"sets of points are continua; the constructor replaces small boxes by one point",
["src/core/arithmetic/codac_polygon_arithmetic.cpp: operator|, operator+, operator-, operator*",G+"codac_ConvexPolygon.cpp: ConvexPolygon(const vector<ThickPoint>&), ConvexPolygon(const IntervalVector&)"])
p("C70","Polygons compare equal as cyclic lists of vertices, and their area is not negative",
"p == q holds exactly when the vertices are the same ones up to a circular shift and to the orientation, and then p and q are the same set of points; area() is not negative and is zero exactly when the vertices are aligned.",
"all convex polygons",
"index arithmetic modulo the number of vertices, for every shift and orientation",
[G+"codac_Polygon.cpp: operator==, operator!=, area"])
p("C71","make_continuous() removes the wraps of an angle and nothing else",
"After Trajectory::make_continuous() the instants are the same, each value has moved by a multiple of the diameter of the codomain, and two successive values differ by at most 90% of this diameter.",
"all trajectories defined by a map of values, any number of wraps in both directions",
"wraps accumulate along the trajectory; a test checks a few of them",
["src/core/variables/trajectory/codac_Trajectory.cpp: make_continuous"])
p("C72","The value to reject only makes get_boxes() faster",
"Paving::get_boxes(l, val, neg_val) returns the boxes of the leaves carrying val, whatever neg_val, in the order of the tree.",
"all pavings, all pairs of values",
"the search is cut according to the values of the inner nodes, for every tree",
["src/core/paving/codac_Paving.cpp: get_boxes","src/core/paving/codac_SIVIAPaving.cpp: compute"])
p("C73","The polygon of a slice encloses its trajectories exactly",
"x.polygon(v) is a convex polygon that contains (t, f(t)) for each trajectory f of the slice x whose derivative is in the slice v, and each instant t of the slice. With a bounded derivative and gates that can be joined with it, each point of the polygon is on such a trajectory. The polygon of an empty slice is empty.",
"all slices (bounded envelope and gates), all derivative intervals, all trajectories, all instants",
"the shape of the polygon depends on six reals and on the signs of the slopes; unit tests compare a few polygons with expected vertices",
["src/core/domains/slice/codac_Slice_polygon.cpp: Slice::polygon", "src/core/geometry/codac_ConvexPolygon.cpp: ConvexPolygon::ConvexPolygon"])
p("C74","interpol with a derivative contains all the values",
"x.interpol(t, v) contains the values over the interval t of each trajectory of x whose derivative is in v; on one slice and a part of its time domain, it is the smallest such interval.",
"all tubes and derivatives with the same slicing, all intervals t of the time domain, all trajectories",
"the result is a union of intersections of polygons and boxes; the uncountably many trajectories cannot be sampled",
["src/core/domains/tube/codac_Tube.cpp: Tube::interpol", "src/core/domains/slice/codac_Slice.cpp: Slice::interpol"])
p("C75","invert with a derivative keeps all the pre-images",
"x.invert(y, v, search) contains each instant t of search with f(t) in y, for each trajectory f of x whose derivative is in v; the version that fills a vector covers these instants with non-empty intervals; on one slice the interval is the smallest.",
"all tubes and derivatives with the same slicing, all y, all search intervals, all trajectories",
"a lost pre-image needs the particular bounds of a slice and a particular trajectory",
["src/core/domains/tube/codac_Tube.cpp: Tube::invert", "src/core/domains/slice/codac_Slice.cpp: Slice::invert"])
p("C51","A function evaluated on tubes encloses its values along every trajectory",
"For every inclusion function and every vector of tubes x of the same slicing, f.eval_vector(x) returns tubes with the slicing of x whose i-th component contains t -> f_i(t, g(t)) for every vector of trajectories g of x; its gates are inside its envelopes when the evaluation is monotone; an empty argument yields empty tubes. f.eval_vector(t, x) and f.eval_vector(slice_id, x) contain the values of f along g over t or over the slice.",
"all numbers of components and outputs, all functions with an inclusion evaluation, all tubes, slicings, trajectories, intervals and slice indices",
"a test evaluates a few functions on a few tubes; the enclosure concerns uncountably many trajectories and all slicings",
["src/core/functions/codac_TFunction.cpp: TFunction::eval_vector(const TubeVector&), eval_vector(const Interval&, const TubeVector&), eval_vector(int, const TubeVector&)"])
p("C76","Delayed tubes and generic functions of tubes enclose their values",
"For every function of an interval of time that contains the values of g over each interval of the time domain, the tube built slice by slice contains g and keeps the slicing. In particular DelayTFunction(d).eval(x) contains every g with g(t) = f(t+d) wherever t and t+d are in the time domain, for every trajectory f of x.",
"all tubes, slicings, delays of either sign and trajectories",
"a test samples a few delays and instants; the enclosure concerns all trajectories, including those whose shifted slices straddle the slicing",
["src/core/functions/codac_TFnc.cpp: TFnc::eval_vector(const TubeVector&)","src/core/functions/codac_DelayTFunction.cpp: DelayTFunction::eval_vector"])
p("C77","A tube built from lists of domains and codomains has exactly their trajectories",
"Tube(v_tdomains, v_codomains) with contiguous domains is a well-formed tube whose slices have these domains, whose time domain is their union, and whose trajectories are exactly the functions that stay in the i-th codomain over the whole i-th domain.",
"all non-empty lists of contiguous time domains and of codomains, all functions of time",
"a test builds a few lists; exactness is about every list and every function",
["src/core/domains/tube/codac_Tube.cpp: Tube::Tube(const vector<Interval>&, const vector<Interval>&)"])
p("C78","Bisecting a tube splits its trajectories according to their value at the instant",
"When the bisector cuts [x](t) into two intervals that cover it, x.bisect(t) returns two tubes; every trajectory of x is in one of them, and the trajectories of the first (second) tube are exactly those of x with a value in the first (second) part at t.",
"all tubes, instants of the time domain and covering bisections",
"completeness of the bisection quantifies over all trajectories and all instants, also between the slices",
["src/core/domains/tube/codac_Tube.cpp: Tube::bisect(double, float)"])
p("C79","The hull of tubes contains every trajectory of every tube",
"Tube::hull of a non-empty list of tubes of the same time domain, whatever their slicings, is a well-formed tube with the slicing of the first one that contains every trajectory of every tube of the list.",
"all lists of tubes, slicings and trajectories",
"a test joins two tubes; the claim is for lists of any length with any slicings",
["src/core/domains/tube/codac_Tube.cpp: Tube::hull(const list<Tube>&)"])
p("C80","overlaps never rejects two tubes that share a trajectory",
"If a trajectory belongs to two tubes of the same time domain then x.overlaps(y, ratio) is true for every ratio up to 1. With the ratio 1, the answer is true exactly when all the envelopes of the intersection are non-empty.",
"all pairs of tubes, slicings, ratios and shared trajectories",
"the absence of a false negative quantifies over all pairs of tubes",
["src/core/domains/tube/codac_Tube.cpp: Tube::overlaps(const Tube&, float)"])
p("C81","The primitive of a tube contains every primitive of its trajectories",
"x.primitive(c) keeps the slicing of x and contains every F with F(t0) in c whose derivative is a trajectory of x.",
"all tubes, initial conditions, trajectories and primitives",
"uncountably many trajectories and any number of slices",
["src/core/domains/tube/codac_Tube.cpp: Tube::primitive(const Interval&)"])
p("C82","The trajectories lb() and ub() are the bounds of the tube",
"When the gates are bounded, x.lb() (x.ub()) is a trajectory over the time domain of x that belongs to x; at each bound of a slice its value is the lower (upper) bound of the gate, and no trajectory of x is below (above) it there.",
"all well-formed tubes with bounded gates, all trajectories",
"a test checks a few gates; that the interpolation never leaves the tube is about every instant",
["src/core/domains/tube/codac_Tube.cpp: Tube::lb(), Tube::ub()"])
p("C83","x.eval([t]) returns the smallest intervals of the lower and upper bounds",
"x.eval([a,b]) is a pair of intervals such that for every t in [a,b] the lower bound of x(t) is in the first one and the upper bound in the second one, and no smaller intervals have this property.",
"all tubes, slicings and sub-intervals of the time domain",
"all the instants of an interval, including slice bounds where the gate is evaluated instead of the envelopes",
["src/core/domains/tube/codac_Tube.cpp: Tube::eval(const Interval&)","src/core/domains/slice/codac_Slice.cpp: Slice::eval(const Interval&)"])
p("C84","Diameters and volume of a tube",
"max_diam() is at least the width of x(t) for every t, is reached by an envelope, and is infinite exactly when an envelope is unbounded; max_gate_diam(t) is the largest width of a gate and t the instant of such a gate; volume() is unchanged by sampling and monotone for the inclusion of tubes of the same slicing; the trajectory diam(v) is defined over the time domain of x.",
"all tubes, instants and slicings",
"optimality is about all slices of tubes of any size",
["src/core/domains/tube/codac_Tube.cpp: Tube::max_diam, Tube::largest_slice, Tube::max_gate_diam, Tube::volume, Tube::diam(const Tube&)","src/core/domains/slice/codac_Slice.cpp: Slice::volume, Slice::diam"])
p("C85","CtcFunction on tubes keeps every trajectory that satisfies the constraint; CtcConstell keeps every landmark",
"CtcFunction(f,y).contract on a TubeVector or on up to ten tubes of the same slicing loses no vector trajectory such that f(x(t)) is in y at all times, only contracts, gives each slice the envelope of the contracted box, and does the same as CtcStatic applied on the box contractor. CtcConstell contracts a box to the smallest box that contains the parts of the landmarks it meets.",
"all constraints, numbers of tubes and slices, trajectories; all maps of landmarks and boxes",
"a test follows a few trajectories; the claim is about all of them, for any number of slices and landmarks",
["src/core/contractors/static/codac_CtcFunction.cpp: CtcFunction::contract","src/robotics/contractors/codac_CtcConstell.cpp: CtcConstell::contract"])
p("C86","Simplifying or rotating a convex polygon loses no point",
"For a polygon in counterclockwise order (every polygon of more than three vertices that the library builds), p.simplify(n) with n at least 3 returns a convex polygon that contains p, inside the box of p enlarged by twice its largest diameter; it terminates with at most n vertices, or with a polygon none of whose sides can be removed, or with that box. p.rotate(theta, center) contains the image of each point by each rotation.",
"all convex polygons of any number of vertices, all n, all angles and centers",
"the loop removes sides one at a time; containment must hold for all points of all polygons through all the iterations",
["src/core/geometry/codac_ConvexPolygon.cpp: ConvexPolygon::simplify, ConvexPolygon::rotate, ConvexPolygon::inflate"])
p("C87","CtcLinobs and CtcChain keep every solution of the linear system",
"Given tubes for x1, x2 and the input u, CtcLinobs(A,b).contract keeps every solution of x' = A x + b u that lies in the tubes and in the observation boxes: the solution is in the contracted tubes at every instant, and in the polygon of every gate. CtcChain does it for x' = v, v' = a. The contractor ends with a result.",
"all matrices and vectors, solutions, inputs, observations, slicings, directions and restricted time domains",
"a test follows a few solutions; the claim is about a continuum of solutions of a differential equation, through forward and backward loops over any number of slices",
["src/core/contractors/dyn/codac_CtcLinobs.cpp: CtcLinobs::contract, ctc_fwd_gate, ctc_bwd_gate, polygon_envelope, exp_At","src/core/contractors/dyn/codac_CtcChain.cpp: CtcChain::contract"])
p("C88","symmetries of the hypercube (OctaSym) act exactly on boxes, form a group, and carry contractors (CtcAction)",
"For every OctaSym s that is a signed permutation: the points of s(x) are exactly the images of the points of x; s.invert() undoes s on points and boxes, and s*s.invert() is the identity; s1*s2 acts as s1 followed by s2; CtcAction(ctc,s) contracts, keeps every point whose image is in the set of ctc, and removes exactly the points whose image ctc removes.",
"all dimensions, signed permutations, boxes (bounded or not), sets and contractors",
"there are 2^n n! symmetries in dimension n, and boxes and contractors are arbitrary",
["src/core/2/actions/codac2_Action.cpp: OctaSym::OctaSym, operator(), invert, operator*","src/core/2/contractors/codac2_CtcAction.cpp: CtcAction::contract"])
p("C89","tests and set operations of codac2 boxes are those of the sets of points",
"For codac2 boxes x and y of the same size: is_empty, is_flat, is_unbounded, is_subset, is_superset, is_strict_subset, is_strict_superset, contains, intersects, is_disjoint and == answer exactly the question about the sets of points, including for boxes with an empty component; the points of x & y are the common points; x | y is the smallest box containing both.",
"all sizes, all boxes (empty, flat, unbounded or not), all points",
"boxes have any size, and emptiness of one component changes the meaning of all the others",
["src/core/2/domains/interval/codac2_IntervalMatrix.h: is_empty, is_flat, is_unbounded, is_subset, is_strict_subset, contains, intersects, is_disjoint, operator==, operator&=, operator|="])
p("C90","codac2 boxes: choice of the largest and thinnest components, bisection, volume",
"largest_diam_index() is a component that spreads at least as much as all the others, thinnest_diam_index() one such that all the others spread as much, with unbounded components too; the two boxes of bisect() have exactly the points of the box, only share the face of the cut, and are both non-empty and strictly smaller; the volume of a bounded box is the product of the widths, grows with the box, and adds up over a bisection.",
"all sizes, all non-empty boxes, all cuts strictly inside the intervals",
"the search has two loops with special cases for unbounded components in any position",
["src/core/2/domains/interval/codac2_IntervalMatrix.h: extr_diam_index, largest_diam_index, thinnest_diam_index, is_bisectable, bisect, volume"])
p("C91","difference and complementary of codac2 boxes cover what they must and only share borders",
"The boxes of x.diff(y) are in x, cover all the points of x that are not in y, and their interiors (relative, for flat boxes) meet neither the interior of y nor each other; the same for x.complementary() in the whole space.",
"all sizes (at least 1), all boxes, both values of the flag of compactness, any difference of intervals that does the same in one dimension",
"the loop over the components builds up to 2n boxes from the intersections of the previous components",
["src/core/2/domains/interval/codac2_IntervalVector.h: diff, complementary"])
p("C92","pavings of codac2: whatever the history of bisections and contractions, the leaves keep the points, and the lists, hull and volume are those of the leaves",
"After any sequence of bisections of leaves and contractions of boxes of leaves, the leaves stay in the initial box and contain every point of it that the contractions keep (all of them if there are only bisections); is_empty() says whether no leaf has a point; boxes_list() and leaves_list() give the non-empty leaves, with all the points; hull_box() is the smallest box around them; volume() is the sum over the leaves, constant under bisection and lowered by contraction.",
"all histories, trees, boxes and sizes (static), without argument for boxes_list()",
"a paving is the result of any history of operations",
["src/core/2/domains/paving/codac2_Paving.h: PavingBase::bisect, is_empty, boxes_list, leaves_list, hull_box, volume"])
p("C93","converting tubes between codac and codac2 keeps exactly their trajectories",
"to_codac2(x) has a gate at each bound of the slices of x and exactly the trajectories of x; to_codac1(x) has the slices of x and exactly its trajectories, gates included; the two round trips keep the trajectories; for vectors of tubes no trajectory is lost, and none is added when each slice of a component starts where a slice of the first component does.",
"all tubes, numbers of slices, slicings, gates present or not, empty or unbounded codomains, all trajectories",
"the gates are overwritten by the setting of the slices around them and must be restored in a second loop, for any number and position of gates",
["src/core/2/domains/tube/codac2_Tube.cpp: to_codac1, to_codac2"])
p("C94","the separator of a projection (SepProj) is a separator of the projection",
"Given a correct separator of a set S of the space (x,y) and a domain of parameters, SepProj(sep, y_init).separate(x_in, x_out) stops, removes from x_in only points of the projection {x | exists y in y_init, (x,y) in S}, removes from x_out only points outside of this projection, and removes no point from both boxes.",
"all separators that are correct for the set, dimensions, boxes, domains of parameters and runs in which no assertion fails",
"the algorithm splits the parameters and rebuilds the boxes from the first impacts of the inner and outer contractions: a point wrongly restored or dropped needs a sequence of several parts of y in a particular order",
["src/core/separators/codac_SepProj.cpp: SepProj::separate, SepProj::fixpoint, SepProj::process, complementaryUnion", "src/core/separators/codac_SepProj.h: ImpactStatus"])
p("C95","a contractor network holds exactly the constraints it was given",
"After any sequence of calls cn.add(ctc, {domains}), cn.add(domain) and subvector(...), the network holds, for every call, the constraint on the given domains (one for each slice when tubes are given, one for each component when vectors are given), no other constraint but the links between a domain and its components and slices; two constraints are merged only if they are the same constraint on the same domains in the same order; each domain is registered once and is linked to exactly the constraints it appears in, so that its changes wake them up; each constraint is waiting for propagation exactly once.",
"all sequences of building calls, kinds and numbers of domains, numbers of components and slices, addresses of the objects",
"the constraints are found through keys made of addresses: whether two of them are merged depends on the memory layout, the order of the calls and the numbers of slices of all the domains",
["src/core/cn/codac_ContractorNetwork.cpp: ContractorNetwork::add, add_dom, add_ctc, subvector", "src/core/cn/codac_Hashcode.cpp: ContractorHashcode::operator<, DomainHashcode::operator<", "src/core/cn/codac_Domain.cpp: Domain::add_ctc, Domain::all_dyn, Domain::all_slices, dyn_same_slicing", "src/core/cn/codac_Contractor.cpp: Contractor"])
p("C96","giving a tube to a contractor network does not change it",
"cn.add(ctc, {x, ...}), before any propagation, keeps every trajectory of the tube x.",
"all tubes and trajectories",
"the values that are lost are those outside of an interval that no test reaches",
["src/core/cn/codac_Domain.cpp: Domain::Domain(Tube&), Domain::Domain(Slice&), Domain::Domain(TubeVector&)"])
p("C97","a zero proven by the topological degree exists",
"If subset.zero_proven(f) returns true for a connected subset of a paving of the plane, then every continuous function enclosed by the inclusion function f has a zero in the subset.",
"all pavings of bounded boxes of the plane obtained by bisections, connected subsets, inclusion functions and continuous functions",
"existence of a zero for every continuous function in an enclosure, from signs on the boxes around the subset: no test can exhibit all functions, all shapes of subsets (holes, subsets joined by a vertex)",
["src/core/paving/codac_ConnectedSubset_degree.cpp: ConnectedSubset::zero_proven, topological_degree, orientation, compute_local_degree, sign_vector, get_cofaces", "src/core/paving/codac_ConnectedSubset.cpp: ConnectedSubset::get_boundary, is_strictly_included_in_paving", "src/robotics/loops/codac_TPlane.cpp: TPlane::compute_proofs"])
p("C98","CtcLohner keeps the solutions of the differential equation",
"If x is a solution of x'=f(x) that belongs to the tube (vector), then it belongs to the tube (vector) contracted by CtcLohner, forward, backward or both.",
"all dimensions, functions of class C1 with inclusion functions of f and of its Jacobian matrix, slicings, tubes with a bounded first gate, and solutions",
"the claim ranges over all solutions of a differential equation (uncountably many) and all tubes; a simulated trajectory inside a tube says nothing on the others",
["src/core/contractors/dyn/codac_CtcLohner.cpp: CtcLohner::contract, LohnerAlgorithm::integrate, globalEnclosure, contractStep"])
p("C99","The polynomial synthesis of a tube does not lose values",
"After enable_synthesis(SynthesisMode::POLYNOMIAL, eps), the call returns, and x([t]) and codomain() contain the values of every trajectory of the tube, until and after the next updates of the tube.",
"all tubes and slicings, intervals [t], precisions eps, polynomials fitted, trajectories of the tube, updates",
"the claim ranges over all tubes and all trajectories in them, and on the polynomials fitted to them; tests look at a drawing or at a few evaluations",
["src/core/domains/tube/codac_TubePolynomialSynthesis.cpp: TubePolynomialTreeSynthesis, operator(), get_bounds, polynomial_factoredform", "src/core/domains/tube/codac_Tube.cpp: Tube::enable_synthesis, operator()(const Interval&), codomain_box"])
p("C100","The separator of a polar sector loses no point",
"SepPolarXY(rho, theta)::separate keeps in x_out the points of the boxes whose polar coordinates are in [rho]x[theta], and in x_in the other points of the boxes.",
"all sectors, boxes, points, and interval operations that enclose the real ones",
"the claim ranges over all points of a box and all sectors; the code itself prints a message when both boxes become empty, without knowing when this happens",
["src/core/geometry/codac_SepPolarXY.cpp: SepPolarXY::contractOut, contractIn, separate"])
p("C101","The separator of a polygon loses no point",
"For closed polygons (given by their vertices, or by segments in any order), convex or not: on a box that does not meet the edges, PdcInPolygon::test answers YES only if every point of the box is inside, and NO only if none is. SepPolygon::separate keeps in x_in all the points of the box that are outside or on an edge, and in x_out all the points that are inside or on an edge, for polygons in the counter-clockwise order. Inside means that the sum of the angles under which the edges are seen is not zero.",
"all closed polygons, boxes, points, interval operations that enclose the real ones, contractors on the edges, differences of boxes",
"only the middle of a box is tested: that the answer holds for all its points is a continuity argument on the real plane, which no finite set of points can check",
["src/core/geometry/codac_PdcInPolygon.cpp: PdcInPolygon, argument, test", "src/core/geometry/codac_SepPolygon.cpp: segment_ctc_list, SepPolygon"])
p("C102","Pavings of separators give right answers",
"A SepPaving built on a box with a separator of a set S: the answers YES and NO for a point agree with S, every point of the box has an answer, and MAYBE is given only in boxes of width at most eps; the construction ends. The answers YES and NO stay right after more calls of Sivia with separators of S, after one call of Reunite, and, for the resulting set, after unions and intersections with other separators. Used as a separator, the paving loses no point of the set from x_out and no other point from x_in.",
"all sets, separators, boxes, points, precisions, bisectors and differences of boxes with their documented effect, sequences of calls of Sivia, sequences of unions and intersections",
"the answers are about all the points of the box and all separators; the tree is rewritten by each operation, and the faults appear only for special positions of the boxes (flat parts, second Reunite, node children that do not cover the node)",
["src/unsupported/paving/codac_PSetNode_impl.cpp: isInside, reunite, removeNode, bisect, is_empty", "src/unsupported/paving/codac_SepPaving.cpp: Sivia, Sivia_ops, separate, Reunite"])
p("C103","The hull contractor of a separator and unions with bounding boxes",
"CtcHull, made from a separator of a set S, is a contractor for S: the result is in the box and keeps every point of S in the box. It ends for a bounded box and eps > 0. When the separator leaves no flat box and each small undecided box has a point of S, the result is the hull of S in the box up to eps. SepUnionBbox is a separator for the union of its sets, if each set is in its bounding box and x_in = x_out.",
"all sets, separators, boxes, points, precisions, bisectors and differences of boxes with their documented effect, lists of separators with their bounding boxes",
"the result must be right for all separators and all boxes; the skipped boxes and the skipped separators must never have held a point of the set",
["src/unsupported/separators/codac_CtcHull.cpp: CtcHull::contract", "src/unsupported/separators/codac_SepUnionBbox.cpp: SepUnionBbox::separate"])
p("C104","Separator of the poses that see a landmark",
"SepPolarXYT(rho, theta, mx, my) separates the poses (x,y,heading) from which the landmark is at a distance in [rho] with a bearing in [theta]: x_out keeps the poses of the set, x_in the other ones, and both boxes are included in the given ones.",
"all landmarks, distances, bearings with finite bounds, pairs of boxes, poses not at the landmark, and operations with the inclusion property",
"a lost pose shows only for particular boxes, headings modulo a turn and bearings; the property is about every pose of the plane",
["src/unsupported/geometry/codac_SepPolarXYT.cpp: SepPolarXYT::separate, contractIn, contractOut, contract"])
p("C105","Separator of the points at a given distance of a box",
"SepDiskExists(x0, y0, rho) separates the points that are at a distance in [rho] of some point of the box [x0]x[y0]: x_out keeps the points of the set, x_in the other ones, and both boxes are included in the given ones.",
"all boxes, distances, pairs of boxes, points, and interval operations that keep the solutions of their relation",
"the set is a projection (there is a point of the box ...), computed with an expression of 23 steps that is propagated back; a wrong step loses points only in some places",
["src/unsupported/geometry/codac_SepDiskExists.cpp: SepDiskExists::separate, contract"])
p("C106","Labels of thick pavings",
"A ThickPaving built from a box and a thick test, then changed by any sequence of Sivia, change and Reunite, is a set of boxes that cover the root box without overlapping, the label of each box contains the value (in the subset, in the superset only, outside) of each of its points for the thick set computed with the same operations, the boxes with an undecided label are not wider than the precision, and Sivia ends.",
"all dimensions, bounded boxes, thick sets, tests with right answers, precisions, operators right for an operation on values, sequences of calls",
"the labels of the inner nodes are reused by later calls; a wrong label shows only for a particular history of calls and particular boxes",
["src/unsupported/thickset/codac_ThickPaving.cpp: ThickPaving::ThickPaving, Sivia, change, Reunite", "src/unsupported/thickset/codac_PNode_impl.hpp: bisect, reunite, setValue"])
p("C107","Questions to a thick paving",
"contains(X) has the value of every point of X (MAYBE out of the paved box); ctcOutside and ctcInside keep the points of a box that are not outside the superset, not inside the subset; ctcTransform keeps every translation that sends the subset of a thick paving into the superset of another one; is_empty, check_empty and erode answer that no point is in the superset, or that some point is in the subset, only when it holds; erode ends.",
"all pavings with right labels, dimensions, boxes that are not flat (any box of translations), tests with right answers",
"the answer gathers an unbounded number of boxes, and a box on the border between boxes or flat is handled apart; tests see a few boxes",
["src/unsupported/thickset/codac_ThickPaving.cpp: contains, ctcOutside, ctcInside, ctcTransform, erode", "src/unsupported/thickset/codac_ThickPaving.h: is_empty, check_empty"])
p("C108","Thick pavings written to a file",
"A ThickPaving saved in a file and loaded from it is the same paving: same tree, same labels, same boxes.",
"all thick pavings of boxes that are not flat",
"round trip over all trees; the code reads the labels back but not the boxes",
["src/unsupported/thickset/codac_PNode_impl.hpp: PNode::save, PNode::load", "src/unsupported/thickset/codac_ThickPaving.cpp: ThickPaving::save, ThickPaving::ThickPaving(filename)"])
p("C109","Value of a thick box in a thick paving",
"ThickPaving::Intersect(Xm, Xp) ends, and its answer contains the value of every box whose lower corner is in Xm and whose upper corner is in Xp: yes when all the points of the box are in the subset, no when all of them are out of the superset, maybe otherwise, the points out of the paved box being maybe.",
"all pavings with right labels, dimensions, thick boxes, boxes of the thick box",
"an infinite family of boxes is decided from finitely many leaves and their projections; the wrong answers need a particular position of the leaves",
["src/unsupported/thickset/codac_ThickPaving.cpp: Intersect, Intersect_fct, Inside2, fastIntersection2, projection_is_include, Xm_inter_Xp_inside_P, isInBox, opMask, isThickIntersect"])
p("C110","Vectors of trajectories",
"The value of a TrajectoryVector is defined exactly on its temporal domain and lies in its codomain; a vector built from a map of vectors has these values at these instants; x+y, x-y, -x, c*x, the product by a matrix and the vector product have at every instant the value computed from the values of the operands; x *= y and the like apply the operation to each component with y as it was before the call; ==, truncation, translation, primitive, subvector, put and resize work component by component.",
"all sizes, components (with different instants), temporal domains, instants, matrices, vectors",
"the operators resample the components on each other's instants, for any number of components and instants; a lost instant or an aliased operand shows only for particular vectors",
["src/core/variables/trajectory/codac_TrajectoryVector.cpp", "src/core/variables/trajectory/codac_TrajectoryVector_operators.cpp", "src/core/arithmetic/codac_traj_arithmetic_vector.cpp: operator+, operator-, operator*, vecto_product"])
p("C111","Vectors of tubes",
"The operators and functions on vectors of tubes enclose the componentwise results for all the functions in their operands (the intersection is exact, the hull of a list contains each of its vectors); contains answers YES or NO only when all the trajectories are inside or one goes out; is_empty is true exactly when no function is in the vector; the two results of bisect share the functions of the vector according to their value at the instant; resize keeps the components; max_gate_diam, diam and diag give the diameters of the values of the components.",
"all sizes, slicings, tubes and trajectories, operations on intervals which are inclusion functions, instants",
"quantifies over all functions in the operands; aliased operands, different slicings and degenerate gates are rare in tests",
["src/core/domains/tube/codac_TubeVector.cpp: contains, is_empty, operator==, bisect, resize, hull, diag, max_gate_diam", "src/core/domains/tube/codac_TubeVector_operators.cpp", "src/core/arithmetic/codac_tube_arithmetic_vector.cpp", "src/core/domains/tube/codac_Tube.cpp: Tube::diam(bool)"])
p("C112","A contractor network used as a contractor",
"CtcCN(cn,x).contract(box) keeps every point of the box for which the constraints of the network have a solution, whatever the boxes it was called with before; the box only shrinks; every contractor of the network takes part; the same holds for cn.contract({{x,box},..}) (with the contractors of the given variables), which leaves the variables free again.",
"all networks of intervals and boxes, contractors, variables and intermediate variables, sequences of calls, boxes, fixed point ratios, numbers of iterations",
"the network keeps a state between two calls (references, queue, volumes, values of the domains): a wrong answer depends on the boxes given before",
["src/core/contractors/static/codac_CtcCN.cpp: CtcCN::contract", "src/core/cn/codac_ContractorNetwork_solve.cpp: contract(var_dom), replace_var_by_dom, reset_interm_vars", "src/core/cn/codac_Domain.cpp: set_ref_values, reset_value, is_var_not_associated"])
p("C52","CtcPicard::contract ends",
"contract(x) of CtcPicard ends: each of its loops over the slices has at most 2000 iterations more than x has slices, x has at most 2000 slices more at the end, and with delta at least 1 the loop which looks for an enclosure ends, as its enclosures grow by at least eps in one direction and the numbers are bounded.",
"all vectors of tubes of the same slicing, functions with a monotone inclusion function, delta at least 1, sets of machine numbers; bounded functions for exact arithmetic",
"a loop that does not end, or that ends only by overflow, depends on the function, the width of the slices and the initial box",
["src/core/contractors/dyn/codac_CtcPicard.cpp: CtcPicard::contract, contract_kth_slices, guess_kth_slices_envelope"])
p("C113","CtcEval and CtcDeriv on vectors of tubes",
"CtcEval applied to an instant or an interval of time, a box and vectors of tubes keeps every solution (instant, value, trajectories, derivatives): always for one instant; for an interval when the inversion of the tubes has at most one interval and there are solutions on both sides of the bounds of slices inside. It only contracts t and z. CtcDeriv applied to vectors keeps every bounded trajectory whose derivatives are in the second vector.",
"all vectors of tubes of any dimension and slicing, boxes, intervals of time, trajectories, both options of propagation and of slicing",
"which component is contracted with which instants depends on the components before it, for all slicings and trajectories",
["src/core/contractors/dyn/codac_CtcEval.cpp: CtcEval::contract(Interval&, IntervalVector&, TubeVector&, TubeVector&), contract(double, IntervalVector&, TubeVector&, TubeVector&), contract(Interval&, IntervalVector&, const TubeVector&)","src/core/contractors/dyn/codac_CtcDeriv.cpp: CtcDeriv::contract(TubeVector&, const TubeVector&)"])
p("C114","Distances from a point to walls",
"shorter_dist_to_walls(walls, p, bearing) is the distance between p and the closest point of the walls in the direction of the bearing, infinite exactly when there is none, for walls which have not this direction and are closer than 999999; shorter_contact_to_walls(walls, p) is the least of these distances over the bearings which are tried, with a bearing where it is obtained.",
"all lists of walls, points and bearings, exact arithmetic",
"the closest wall depends on the relative position of all the walls, and on the walls that are parallel to the bearing",
["src/robotics/objects/codac_Wall.cpp: Wall::contains, operator&, shorter_dist_to_walls, shorter_contact_to_walls"])
p("C115","Loops proven by a t-plane",
"After compute_loops (or compute_detections then compute_proofs), for tubes that contain the positions of a trajectory (and its velocities if they are given), each loop of the list of proven loops contains times t1 < t2 where the trajectory is at the same point, provided that the inclusion functions exclude zero on the OUT leaves around the loop and that no IN leaf touches an OUT leaf. With positions only, a margin in the tubes and no equality of bounds, this proviso is met.",
"all trajectories (continuous; differentiable if velocities are used), tubes of any slicing, planes after any calls, precisions, ratios of bisection",
"a proof of existence is a claim about all the trajectories of the tubes; tests have only one trajectory, with a loop that is known",
["src/robotics/loops/codac_TPlane.cpp: TPlane::compute_loops, TPlane::compute_proofs, f_p, f_pv","src/core/paving/codac_ConnectedSubset_degree.cpp: ConnectedSubset::zero_proven"])
p("C116","The number of zeros found on a connected subset is the number of zeros",
"zeros_number(f, Jf, precision), called on the connected subsets of a paving of the plane one after the other, returns for each of them either -1 or the exact number of zeros of the function on the subset, when the function is differentiable there, f and Jf enclose it and its Jacobian matrix, the subset does not touch the border of the paving and f excludes a zero on the OUT boxes around it. The call terminates; it bisects boxes of the subset, and the paving remains a paving of the same set with the same values; -1 is returned only after a box smaller than the precision was found where the determinant may vanish.",
"all pavings obtained by cutting a bounded box of the plane, all their connected subsets, all sequences of calls on distinct subsets, all differentiable functions and all enclosures, all precisions",
"The exactness is a theorem of degree theory on sets with arbitrary shapes: tests only see a few functions whose zeros are known, and never the effect of a call on the paving used by the next calls.",
["src/core/paving/codac_ConnectedSubset_degree.cpp:ConnectedSubset::zeros_number","src/core/paving/codac_ConnectedSubset_degree.cpp:ConnectedSubset::non_singular_jacobian","src/core/paving/codac_Paving.cpp:Paving::bisect"])
p("C117","The summary of the loops of a t-plane shows every loop",
"traj_loops_summary() returns a trajectory on the temporal domain of the plane that is positive at both times of every pair of the box of a detected loop (thus at both times of every loop of the trajectory, when the tubes given to compute_detections contain it with some margin), is at least 1 (2 for a proven loop) as long as a sample of the loop is not passed, and is positive (larger than 1) only closer than two precisions to a detected (proven) loop.",
"all planes, all sets of detected and proven loops, all precisions, all times",
"The marking of the samples depends on the position of each loop with respect to the samples (bounds between two samples, loops without samples, equality); tests only look at one mission, with the values of some samples.",
["src/robotics/loops/codac_TPlane.cpp:TPlane::traj_loops_summary","src/core/variables/trajectory/codac_Trajectory.cpp:Trajectory::sample"])
p("C118","CtcLinobs on tubes of polygons keeps the solutions of a linear system",
"codac2::CtcLinobs::contract(x, u), in any direction and with or without the envelopes, keeps in the tube of polygons x, at every time of every slice and gate, the solutions of x' = A x + b v with v in the tube u; when all the gates are defined it ends with a result.",
"all matrices, vectors, temporal domains with gates, tubes of convex polygons and of inputs, directions, solutions",
"Solutions are uncountable, each is kept or lost depending on sums and intersections of polygons over arbitrarily many slices; tests compare a few vertices.",
["src/core/2/contractors/codac2_CtcLinobs.cpp:CtcLinobs::contract","src/core/2/contractors/codac2_CtcLinobs.cpp:CtcLinobs::ctc_fwd_gate","src/core/2/contractors/codac2_CtcLinobs.cpp:CtcLinobs::ctc_bwd_gate","src/core/2/contractors/codac2_CtcLinobs.cpp:CtcLinobs::polygon_envelope","src/core/2/domains/tube/codac2_TDomain.cpp:TDomain::all_gates_defined"])
p("C119","CtcDeriv and CtcChain on the tubes of codac2",
"On tubes of codac2, CtcDeriv::contract(x, v) ends with a result exactly when the temporal domain of x has a gate at each bound of its slices and the slices of x and v are the same apart from gates; the temporal domain, v and the other tubes on it are not changed; trajectories of x are only removed; every trajectory of x whose derivative is a signal of v is kept. CtcChain::contract(x, v, a) only removes trajectories of x and v and keeps those with x' = v and v' = a.",
"all temporal domains, tubes, directions of propagation, restricted domains and trajectories",
"tests use a few temporal domains, created with gates; the failure without gates is an assertion that depends on the slicing of the user's tube",
["src/core/contractors/dyn/codac_CtcDeriv.cpp:CtcDeriv::contract(codac2::Tube<Interval>&, const codac2::Tube<Interval>&, TimePropag)", "src/core/contractors/dyn/codac_CtcChain.cpp:CtcChain::contract(codac2::Tube<Interval>&, codac2::Tube<Interval>&, const codac2::Tube<Interval>&, TimePropag)", "src/core/2/domains/tube/codac2_Tube.h:operator&=", "src/core/2/domains/tube/codac2_TDomain.cpp:TDomain::are_same"])
p("C120","Simulated observations of landmarks",
"DataLoader::generate_observations from a pose returns, for any order of the landmarks, one observation for each landmark whose computed range and bearing meet the visible ranges and angles: it contains the range and bearing of every position of the landmark in its box, and no landmark of visible range and (bearing less heading) is missed. Along a trajectory, for all random choices, it ends, with at most nb_obs observations for nb_obs > 0 (exactly nb_obs when a landmark can be seen at each instant), each dated in the domain, naming a landmark of the map and containing the range and relative bearing of its position. generate_landmarks returns the number of landmarks asked for, in the box.",
"all maps, poses, trajectories, visible ranges and angles, numbers of observations, and all random choices",
"the generation is random, tests see a few draws; the guarantee is for every draw",
["src/robotics/data/codac_DataLoader.cpp:DataLoader::generate_observations", "src/robotics/data/codac_DataLoader.cpp:DataLoader::generate_landmarks", "src/robotics/objects/codac_Beacon.cpp:Beacon::Beacon"])
p("C121","CtcDeriv gives the smallest tube around the trajectories it keeps",
"With exact arithmetic, one call CtcDeriv::contract(x, v) (forward and backward) on a tube x whose envelopes are bounded (inside BOUNDED_INFINITY) and contain the gates, a tube v of the same slicing with bounded envelopes, and such that at least one trajectory of x has its slopes in v, leaves nothing to be removed. Every value of every gate of the result is the value at this time of a trajectory of the initial tube with slopes in v, and the envelope of every slice is contained in every interval that contains the values of these trajectories over the slice. A second call changes nothing.",
"all pairs of tubes as above, of any number of slices and any slicing, any values",
"tests compare the contracted tube with stored values on a few tubes; that no smaller tube is possible speaks of all trajectories, and the two passes interact over an unbounded number of slices",
["src/core/contractors/dyn/codac_CtcDeriv.cpp: CtcDeriv::contract(Tube&, const Tube&, TimePropag), CtcDeriv::contract(Slice&, const Slice&, TimePropag)", "src/core/domains/slice/codac_Slice_polygon.cpp: Slice::polygon"])
p("C122","Tubes and trajectories built from a function have the values of the function",
"Tube(tdomain, timestep, f, i) and TubeVector(tdomain, timestep, f), for a function f of the time, end, have the slicing of Tube(tdomain, timestep) and contain the function; each envelope is the evaluation of f over the slice and each gate its evaluation at the bound. Tube(x, f, i) does the same with the slicing of x, whatever the values of x. f.traj_eval_vector(x) and f.traj_eval(x) give trajectories over the temporal domain of x whose value is f(t, x(t)) at every instant at which x is given.",
"all temporal domains, time steps, functions, tubes x, vectors of trajectories x",
"tests evaluate a few functions with one time step and compare stored values; enclosure at all times, termination and the interplay of the instants of the components are about all of them",
["src/core/domains/tube/codac_Tube.cpp: Tube(const Interval&, double, const TFnc&, int), Tube(const Tube&, const TFnc&, int)", "src/core/domains/tube/codac_TubeVector.cpp: TubeVector(const Interval&, double, const TFnc&)", "src/core/functions/codac_TFunction.cpp: TFunction::eval_vector(const TubeVector&), TFunction::traj_eval_vector, TFunction::traj_eval"])
p("C123","Colors and color maps",
"Conversions between RGB and HSV colors give valid colors, keep the opacity, and undo each other up to 1/100000 per channel (exactly, unless the color is almost gray). add_color_point sets the color at its key and changes nothing else. For a map of at least two valid colors, color(r) is defined and valid for every r in [0,1]; it is the color of the key when r falls on one and, in RGB mode, the linear mix of the two colors around otherwise; in HSV mode the hue follows the shortest way. reverse gives the colors in the other order. set_opacity gives its opacity to all the colors, and is_opaque tells it. color(t,f) is the color at the ratio of f(t) in the range of the trajectory, gray if f is constant. rgb2hex writes the bytes a color was made from.",
"all colors, maps of any length with any keys, ratios, trajectories and bytes (arithmetic without rounding)",
"tests look at a few named colors; the keys, the colors and the ratio are arbitrary, and the case analysis on the largest channel and on the sector of the hue has borders at every multiple of 60 degrees",
["src/core/graphics/codac_colors.cpp: rgb2hsv, hsv2rgb, rgb2hex, make_rgb, make_hsv", "src/core/graphics/codac_ColorMap.cpp: ColorMap::add_color_point, color, reverse, set_opacity, is_opaque"])
p("C124","A restricted temporal domain limits the contractions",
"After restrict_tdomain(T), contracting with CtcDeriv or CtcStatic leaves unchanged the value of the tubes at every instant that is in no slice meeting T, whatever the propagation ways and the static contractor. With CtcLinobs and CtcChain the values there are only intersected with the domain [-9999,9999] of the contractor.",
"all tubes, slicings, temporal domains T, instants, static contractors and propagation ways",
"the gates shared by a slice that meets T and one that does not, and the slices visited twice by the two propagation ways, depend on the position of T among the slices",
["src/core/contractors/dyn/codac_DynCtc.h: restrict_tdomain", "src/core/contractors/dyn/codac_CtcDeriv.cpp: CtcDeriv::contract", "src/core/contractors/dyn/codac_CtcStatic.cpp: CtcStatic::contract", "src/core/contractors/dyn/codac_CtcLinobs.cpp: CtcLinobs::contract"])
p("C125","A dynamic contractor is run on the domains it was given, or refuses them",
"Each dynamic contractor (CtcDeriv, CtcEval, CtcDelay, CtcPicard, CtcLohner, CtcStatic, CtcChain, CtcLinobs) called with a list of domains makes exactly the contraction of the documented list of types (for slices of CtcDeriv, one for each slice of the first half with the slice of the same rank of the second half), and throws for any other list; in a network CtcDeriv on two tube vectors relates each component with the component of the same rank, slice by slice.",
"all lists of domains of any length and types; all tube vectors of the same size and numbers of slices",
"tests call the contractors with lists that are right; the wrong lists, of any length and mixture of types, and the pairs made by the network for every size are not enumerable",
["src/core/contractors/dyn/codac_CtcDeriv.cpp: CtcDeriv::contract(vector<Domain*>&)", "src/core/contractors/dyn/codac_CtcEval.cpp: CtcEval::contract(vector<Domain*>&)", "src/core/contractors/dyn/codac_CtcDelay.cpp", "src/core/contractors/dyn/codac_CtcPicard.cpp", "src/core/contractors/dyn/codac_CtcLohner.cpp", "src/core/contractors/dyn/codac_CtcStatic.cpp", "src/core/contractors/dyn/codac_CtcChain.cpp", "src/core/contractors/dyn/codac_CtcLinobs.cpp", "src/core/cn/codac_ContractorNetwork.cpp: ContractorNetwork::add(DynCtc&, ...)"])
p("C126","Memory of a tube over any history of calls",
"Over any history of calls that change the slices of a tube or its mode of synthesis, no freed slice or gate is accessed and none is freed twice, nb_slices() and slice(k) give the current slices, and the destruction of the tube frees every slice and every gate ever allocated exactly once, with the objects of synthesis.",
"all numbers of slices, all finite histories of enable_synthesis (three modes), sample, remove_gate / merge_similar_slices, truncate_tdomain, assignment, setters of slices and shift_tdomain",
"the order of the calls matters and the failures are accesses to freed memory, which a test may not notice; the histories are not enumerable",
["src/core/domains/tube/codac_Tube.cpp: ~Tube, operator=, sample, remove_gate, merge_similar_slices, truncate_tdomain, shift_tdomain, enable_synthesis, create_synthesis_tree, delete_synthesis_tree, nb_slices, slice", "src/core/domains/slice/codac_Slice.cpp: ~Slice, chain_slices, merge_slices, set_envelope", "src/core/domains/tube/codac_TubeTreeSynthesis.cpp: TubeTreeSynthesis, ~TubeTreeSynthesis, request_integrals_update"])
p("C127","Memory of the domains of a contractor network",
"Over any history of constructions, copies, assignments, resets and destructions of Domain objects, no pointer is used before being set or after being freed, a copy refers to the same values as the original and has its own copy of the initial value, and the memory is given back. Over any history of calls, contract() reads no freed slice of a tube on which contractors were added; in particular after reset_interm_vars().",
"all finite histories of Domain operations (default, by reference, temporary or intermediate construction, copy, assignment, set_ref_values, reset_value, destruction); all tubes, all histories of calls on the tube and on the network",
"the failures are uses of freed or uninitialised memory, which depend on the order of the calls and which a test may not notice",
["src/core/cn/codac_Domain.cpp: Domain, ~Domain, operator=, set_ref_values, reset_value", "src/core/cn/codac_ContractorNetwork.cpp: add, add_dom, create_interm_var", "src/core/cn/codac_ContractorNetwork_solve.cpp: contract, reset_interm_vars, trigger_all_contractors"])
p("C128","Setting one component of a codac2 vector tube",
"x[i].set(c), x[i] = y[j] and x[i] = F(y[j]) change neither the temporal slices nor the other components; each slice gets the values asked, and the functions of the component afterwards are those with the values asked. codomain() of a component is the smallest interval that contains its slices and gates.",
"all temporal domains, tubes, components, values and interval functions F",
"which functions are lost at the gates depends on the former values of the following slices, for every tube",
["src/core/2/domains/tube/codac2_TubeComponent.h: TubeComponent", "src/core/2/domains/tube/codac2_Slice.h: Slice::set_component"])
p("C129","Names of the domains in the exported graph of a network",
"print_dot_graph() ends, and shows for each domain: the name given by set_name(); else, for a component of a vector or a slice of a tube that has a name, this name followed by the number of the component or slice; else the names of the domains equal to it; else a question mark. Different domains get different names when the names given are different.",
"all networks built with add() and subvector(), all choices of names, all orders of the domains in the network",
"the names are computed by mutually recursive calls whose end depends on the names given and on the equalities of the whole network",
["src/core/cn/codac_Domain.cpp: Domain::var_name, Domain::is_component_of, Domain::is_slice_of", "src/core/cn/codac_ContractorNetwork.cpp: ContractorNetwork::subvector", "src/core/cn/codac_ContractorNetwork_visu.cpp: ContractorNetwork::print_dot_graph, ContractorNetwork::set_name"])
p("C130","Inside and outside answers of the explored-area test",
"SweepTest::test(X) answers IN only when every point of the box X is seen by the sensor during the mission, whatever the motion that agrees with the tubes of position, heading and sensor length; OUT only when no point of X is seen; MAYBE only when each point is seen by some motions and not by others. The limits left by fast_test() can be used to test a part of the box.",
"all boxes, all sequences of slices, all continuous motions that agree with the slices, all roundings that keep the inclusion property",
"the answers are about every point of a box and every continuous motion; they rest on changes of sign between slices",
["src/unsupported/thickset/codac_sweepTest.cpp: SweepTest::test, SweepTest::fast_test, SweepTest::test_exist_v, extract_zeros", "src/unsupported/thickset/codac_sweepTest.h: get_sign, is_inside, is_outside, keep_constant_sign, exist_t"])
p("C131","Contractor of a georeferenced image: keeps the pixels of value 1, gives the smallest box",
"For an image given by its summed area table, the contractor keeps every point of the box which lies in the cell of a pixel of value 1, never makes the box larger, and (with exact arithmetic) gives the smallest box around these points, empties the boxes without any, and always ends; as an inner contractor it leaves the boxes which are not inside the image unchanged",
"all images, origins, resolutions of both signs, boxes (also unbounded or empty), and all outward roundings for the points kept",
"the rectangle of pixels comes from four divisions, a clipping, roundings to integers and four loops with counts by differences of four table entries: tests see a few images and boxes, not the borders of all cells nor images of billions of pixels",
["python/src/unsupported/image/codac_CtcRaster.h: CtcRaster::contract, contractDim, enclosed_pixels","python/src/unsupported/image/codac_GeoImage.h: GeoImage::enclosed_pixels, pixelAt, getBoundingBox","python/src/unsupported/image/codac_GeoMapper.h: GeoMapper::world_to_grid, grid_to_world","src/unsupported/thickset/codac_GeoMapper.h: GeoMapper::world_to_grid"])
p("C132","Texts of functions: sub-expressions, names of arguments, text given to CAPD",
"For a function whose text is (c_0; ...; c_{n-1}) with spaces anywhere around the components, expr(i) is c_i without the spaces at its ends; arg_name(i) is the i-th name given; the text given to CAPD for a TFunction declares its variables and only them, in their order",
"all texts and components without another semicolon, all lists of names without a comma, all indices",
"the components are found by cutting at semicolons and removing the first and last characters of the first and last pieces, the commas by comparing an index with the number of variables: tests see a few texts",
["src/core/functions/codac_TFunction.cpp: TFunction::expr(int), operator[], arg_name, construct_from_array","src/core/tools/codac_Tools.cpp: Tools::trim","src/3rd/capd/codac_capd_integrateODE.cpp: capd_str_function"])
p("C133","Tube of a guaranteed integration: encloses every motion the curve encloses",
"The tube built by CAPD_integrateODE has one component per dimension, over the whole time domain, with the same slices of at most tube_dt; its trajectories are exactly those which stay, on each slice and at its ends, in the enclosure given by CAPD for this slice; so every motion enclosed by CAPD lies in the tube, and the construction ends",
"all time domains, steps, dimensions and enclosures given by CAPD",
"the slices are written one after the other and each writing meets the gates with neighbours not yet written: tests see one system and compare a few values",
["src/3rd/capd/codac_capd_integrateODE.cpp: CAPD_integrateODE","src/core/variables/tube/codac_Slice.cpp: Slice::set"])
p("C134","Random trajectories: values in the bounds, one point per step and one at the end",
"All values of a random trajectory and its codomain lie in the bounds whatever the roundings; with exact additions its points are the values drawn at the times lb + k timestep before ub and at ub, it is a valid trajectory (domain and codomain are the hulls of the times and of the values), defined exactly on the time domain, and its construction ends",
"all time domains, steps, bounds and sequences of random numbers",
"the values are random and the last point depends on a comparison with ub + timestep: a test sees one sequence, and rarely a step which is absorbed",
["src/core/variables/trajectory/codac_RandTrajectory.cpp: RandTrajectory","src/core/tools/codac_Tools.cpp: Tools::rand_in_bounds"])
p("C135","Polygon envelope of a tube: its inside is the union of the slices",
"For a tube without empty slice nor gate and with bounded envelopes, the polygon given by polygon_envelope() has four vertices per slice and a point is inside (even-odd rule) exactly when it lies in one of the slices (right and upper sides apart); so each trajectory of the tube is, at each instant but the last, inside the polygon or on the upper side of a slice",
"all tubes with bounded envelopes, all points, all trajectories",
"the polygon is not convex and has as many vertices as wanted: tests compare a few vertices, the inside of the line is a matter of all of them",
["src/core/domains/tube/codac_Tube.cpp: Tube::polygon_envelope","src/core/geometry/codac_Polygon.cpp: Polygon::Polygon"])
p("C136","Figures: limits of the axes, truncation of infinite bounds, pavings shown",
"axis_limits with the ratio kept gives the smallest view box of the ratio of the window which contains the wanted box, and the limits sent contain it with the margin; the truncation keeps finite intervals and, when finite bounds are displayable, keeps exactly the displayable values; show() sends each leaf of a bounded paving once, to the group of its value, whatever was shown before, the boxes of the inside being those of get_boxes(IN); the view box contains all that is shown",
"all boxes, ratios, margins, bounds, pavings of any depth and previous states of the figure",
"drawings go to an external viewer and are never compared by tests; the result depends on the calls made before on the figure",
["src/core/graphics/codac_Figure.cpp: Figure::trunc_inf","src/core/graphics/codac_VIBesFig.cpp: VIBesFig::axis_limits, VIBesFig::draw_box","src/core/graphics/codac_VIBesFigPaving.cpp: VIBesFigPaving::show, draw_paving"])
p("C137","Projection of a pair of contractors: a separator for the projected set",
"SepCtcPairProj built from an inner and an outer contractor of a set separates correctly for the projection of this set: in each box, the points which have a parameter in the set are kept by the outer result and all others by the inner one, so that no point is lost by both; the two contractors extracted from a separator by CtcFromSep are an inner and an outer contractor of its set; the three constructors give the same separator",
"all sets, contractors, separators, boxes and boxes of parameters",
"the quantifiers over the parameters cannot be tested; the inner and outer roles are exchanged easily",
["src/core/separators/codac_SepCtcPairProj.cpp: SepCtcPairProj::SepCtcPairProj, SepCtcPairProj::separate","src/core/separators/codac_SepCtcPairProj.h: CtcFromSep::contract"])
p("C138","Operators of slices: all combinations of trajectories are kept",
"The operators +=, -=, *=, /=, |=, &= of a slice with a number, a slice of the same time domain or a trajectory give a slice which contains all combinations of the trajectories of the operands, &= exactly those of both slices; applied to each slice of a tube they give the operator of tubes",
"all slices, operands, trajectories, tubes and interval operators enclosing the operation",
"the gates are shared between neighbouring slices: tests use slices alone or compare a few values",
["src/core/domains/slice/codac_Slice_operators.cpp: Slice::operator+=, Slice::operator|=, Slice::operator&="])
p("C139","Assignment of vectors of trajectories and tubes copies the values",
"x = y makes the vector x equal to y and changes no other vector; any sequence of such assignments reads and deletes no freed array, leaves none without vector, and the vectors behave as values",
"all sequences of assignments, all vectors and sizes",
"tests assign a few fresh vectors; aliasing between the operands and sequences of assignments are not enumerated",
["src/core/variables/trajectory/codac_TrajectoryVector.cpp: TrajectoryVector::operator=", "src/core/domains/tube/codac_TubeVector.cpp: TubeVector::operator="])
p("C140","Trajectories can be copied, assigned, sampled and destroyed in any order",
"A program of constructions, copies, assignments, samplings and destructions of trajectories defined by functions or by points reads and deletes no deleted function; each trajectory has the value last given to it, and once all are destroyed no function stays in memory",
"all programs of these operations, all trajectories",
"the defects need a given order of operations on the same objects; tests create, use and drop each trajectory once",
["src/core/variables/trajectory/codac_Trajectory.cpp: Trajectory::operator=, Trajectory::~Trajectory, Trajectory::sample"])
p("C141","The Lissajous data set: observations of the landmarks seen, velocities of the curve",
"The generation of observations ends after at most nb_obs instants, spread evenly; it returns one observation for each landmark seen at each of these instants, dated in the domain, which contains the range and the bearing of the landmark; the velocities of the data set are the derivatives of the positions and the heading is their direction",
"all trajectories, landmarks, domains, numbers of observations and visible ranges and angles",
"the number of iterations and the returned observations depend on the domain, the step and the map",
["src/robotics/data/codac_DataLoaderLissajous.cpp: DataLoaderLissajous::get_observations, DataLoaderLissajous::load_data"])
p("C142","Search of a point in a thick set; erosion and dilation of thick sets",
"FastSivia ends; check_empty asked afterwards says OUT only if no point of the box may be in the set, and IN only if some point is in it. The erosion test says IN on a box of parameters only if, for each of them, the part of the moved set B in the search box is in A, and OUT only if, for each of them, a point of B is not in A, for all the sets between the bounds of the thick sets; likewise for the dilation",
"all thick sets with a right test, boxes, precisions, parameters and search boxes",
"the loop stops at a point which depends on the test, and the answers concern all the sets between two bounds",
["src/unsupported/thickset/codac_ThickPaving.cpp: ThickPaving::FastSivia", "src/unsupported/thickset/codac_ThickPaving.h: ThickPaving::check_empty", "python/src/unsupported/thickset/codac_thickset.cpp: ThickErode, ThickDilate, ThickNot, ThickMinus"])
p("C143","Tubes combined with trajectories and inflated by a trajectory",
"The sum, difference, product, quotient, union and intersection of a tube and a trajectory on the same temporal domain, in both orders, contain the result of the operation on each function of the tube; inflate(rad) with a non-negative trajectory contains each function within rad(t) of a function of the tube, and, but for the rounding, nothing farther than rad at the gates and than the largest rad of the slice elsewhere",
"all well-formed tubes, all trajectories defined by values on the temporal domain of the tube, all functions of the tube",
"the result must hold for every function and every instant, not for samples",
["src/core/arithmetic/codac_tube_arithmetic_scalar.cpp: operators with a Trajectory", "src/core/domains/tube/codac_Tube.cpp: Tube::inflate(const Trajectory&)"])
p("C144","Parts of vectors of tubes, sampling, inflation and shift of vectors of tubes",
"subvector(i,j) contains exactly the functions whose components are in the components i to j; put replaces the components asked for and no other; sample changes no function and cuts each component at the instants asked for and nowhere else; set(y,[a,b]) leaves the values in y over [a,b] and keeps the functions with such values; inflate contains each function within the radius of a function of the vector; shift_tdomain shifts the functions",
"all vectors of proper tubes of any size over a same temporal domain, whatever their slicings; all indices, instants, boxes, radii and functions",
"the sizes, the slicings and the functions are not bounded",
["src/core/domains/tube/codac_TubeVector.cpp: subvector, put, sample, set, inflate, shift_tdomain"])
p("C145","Wider, steepest and last slices; index of a slice",
"wider_slice is a slice that lasts the longest; steepest_slice is one for which the middle of the gates moves the most, for a tube and for a vector of tubes; last_slice ends with the temporal domain; index(slice) is k exactly when the slice is the k-th of the tube, and -1 exactly when it is none of them",
"all well-formed tubes and vectors of tubes, whatever the number of slices; all slices",
"the answers are extrema over lists of any length, with numbers that are not numbers for empty gates",
["src/core/domains/tube/codac_Tube.cpp: wider_slice, steepest_slice, last_slice, index", "src/core/domains/tube/codac_TubeVector.cpp: steepest_slice"])
p("C146","Contractor on the translations which map a thick set on another one",
"CtcAEqualB::contract removes no translation p such that x + p is in A exactly when x is in B, for any sets A and B between the bounds of the thick sets; its result is in the box given, and in every box which contains the small sub-boxes left undecided by the test; the test of a box of translations answers OUT only if none of them is a solution; all this ends on bounded boxes; NbIteration returns the number of boxes of the bisection tree and ends",
"all thick sets, tests of them and of their translations, boxes of translations, precisions and bisection ratios; all pairs of sets between the bounds",
"the answer depends on two searches nested in a bisection, of any depth, and the claim is about all the sets between the bounds",
["python/src/unsupported/thickset/codac_thickset.cpp: ThickAEqualB, CtcAEqualB, NbIteration"])
p("C147","Integrals, primitives, interpolation, truncation, overlap and volume of vectors of tubes",
"TubeVector::integral(t) contains, component by component, the integrals from the initial instant to any instant of t of every vector signal of the vector of tubes, and partial_integral bounds them from below and above; integral(t1,t2) contains the increments between t1 and t2 when t1 <= t2; primitive(c) contains every primitive starting in c (within the bound of the contractor); interpol(t,v) contains the values of the signals whose derivatives are in v; truncate_tdomain keeps the values inside the new temporal domain; two vectors of the same size sharing a signal overlap; volume() is the sum of the areas of the envelopes, finite iff they are all of finite width, and does not increase when envelopes are contracted.",
"every number of components, every proper vector of tubes over every temporal domain, every interval, every vector of signals",
"The statements range over all the signals enclosed by the tubes (uncountably many), all slicings and all intervals; tests compare a few values on a few tubes.",
["src/core/domains/tube/codac_TubeVector.cpp: primitive, volume, interpol, overlaps, truncate_tdomain, integral, partial_integral"])
p("C148","Nodes of pavings: copies, moves, assignments, destruction and files",
"The destruction of a paving (PSetNode, PNode) deletes each of its nodes once and nothing else; a copy is an equal tree made of other nodes, and both can be destroyed in any order; a move construction gives the nodes to the new object and leaves nothing to the former one; an assignment should do the same. PSetNode::save writes a file from which the paving, with all its bounds, can be found again, and PSetNode::load should find it.",
"every tree of nodes in memory, of any depth, every memory state, every paving written in a file",
"Double deletions and leaks depend on the whole history of copies, moves and assignments of trees of any depth; tests run with a few objects and undefined behaviours may stay silent.",
["src/unsupported/paving/codac_PSetNode_impl.cpp: PSetNode constructors, destructor, operator=, save, load", "src/unsupported/thickset/codac_PNode_impl.hpp: PNode constructors, destructor, operator="])
p("C149","Copies, assignments, flags and reset of Paving",
"The copy of a Paving is an equal tree made of other nodes, the original is unchanged, and the copy can be destroyed without touching it; an assignment gives an equal tree, and should release the former nodes, accept x = x, and the root of a copy should be the copy. flag() is true iff a node of the paving has a flag, set_flag() flags all of them, reset_flags() none; reset_paving() deletes all the nodes under the paving, which becomes a leaf.",
"every tree of nodes in memory, of any depth, every memory state",
"Leaks, dangling roots and lost nodes depend on the whole tree and on the order of the destructions; unit tests do not observe them.",
["src/core/paving/codac_Paving.cpp: Paving copy constructor, destructor, operator=, flag, set_flag, reset_flags, reset_paving"])
p("C150","Functions of trajectories against functions of tubes; roots",
"When the trajectory x is in the tube T, the trajectory f(x) is in the tube f(T): at the instants at which x is sampled for every f, and at all the instants when f is linear. root(x,p) is, at the instants at which x is sampled, the real root of order p of the value of x.",
"every trajectory with a map of values, every tube enclosing it, every function with an extension to intervals, every order p, every instant",
"The two operations are computed on different sets of instants; whether they agree depends on all the samplings.",
["src/core/arithmetic/codac_traj_arithmetic_scalar.cpp: macro_scal_unary, sqr, root","src/core/arithmetic/codac_tube_arithmetic_scalar.cpp"])
p("C151","Constructors of vectors of tubes",
"TubeVector(tdomain, codomain), TubeVector(tdomain, timestep, codomain), TubeVector(x, codomain), TubeVector(n, x), TubeVector(v_tdomains, v_codomains), TubeVector(traj, timestep) and TubeVector(lb, ub, timestep) give vectors of the right size over the given temporal domain, with the same slices for all the components, not longer than the time step. The functions of the first five are exactly those which stay in the given boxes (or tube); the vectors built from trajectories contain them and all the functions between them.",
"every temporal domain, time step, size, box, list of contiguous domains and boxes, pair of vectors of trajectories",
"The claim is about the set of all the functions in the tubes and about slicings of any length.",
["src/core/domains/tube/codac_TubeVector.cpp: constructors of TubeVector, set"])
p("C152","Data of the Redermor",
"DataLoaderRedermor::load_data reads the lines 46 to 59999 of the log and throws when one of them is not made of numbers. The tubes it gives are over the time of the log and contain the state (horizontal position, depth, velocity in the frame of the world) of every motion of the robot whose attitude, velocity in its frame and depth stay within the uncertainties of the interpolated data, and which starts at the position of the first line; the formulas of the velocity are the rotations by roll, pitch and yaw. The truth goes through the data. The tubes have the requested time step and temporal domain.",
"every log with increasing instants and non-negative uncertainties, every time step, every motion which agrees with the log",
"The claim is about all the motions which agree with the data, at all the instants between two lines.",
["src/robotics/data/codac_DataLoaderRedermor.cpp: load_data", "src/robotics/data/codac_DataLoader.cpp: serialized_data_available, deserialize_data"])
p("C153","Tubes of the Lissajous data set",
"DataLoaderLissajous::load_data gives, over the requested temporal domain, three tubes which contain the position and the heading of the curve, and two tubes which contain every signal within 0.1 of the derivatives of the positions. The five tubes have the same slices, with the requested time step, and their values are the evaluations of the functions over the slices.",
"every temporal domain, every time step, every sound evaluation of the functions over intervals, every signal of velocity within the uncertainty",
"The claim is about all the instants of a continuous domain and all the signals within the uncertainty.",
["src/robotics/data/codac_DataLoaderLissajous.cpp: load_data", "src/core/domains/tube/codac_TubeVector.cpp: TubeVector(tdomain, timestep, f), inflate"])
p("C154","Matrices of intervals of codac2: construction, resizing, arithmetic",
"A matrix built from bounds, from two matrices or from a list of rows has the given coefficient at each row and column; a list of rows of different lengths is refused. resize keeps the coefficients common to the two sizes at their row and column, and the new ones are unbounded. Sums, differences, opposites, products by a number and inflations contain the results of all the matrices of numbers of their operands, and an inflation contains no other one. A matrix is empty exactly when it contains no matrix of numbers; lb() and ub() give the bounds of each coefficient.",
"every number of rows and columns, every coefficients, every radius, every matrix of numbers in the operands",
"The claim is about all the matrices of numbers in a matrix of intervals and all the sizes; the storage is by columns while the bounds are given by rows.",
["src/core/2/domains/interval/codac2_IntervalMatrix.h: IntervalMatrix_, resize, is_empty, lb, ub, inflate, operator+, operator-, operator*"])
p("C155","Vectors of intervals of codac2: cartesian product, subvector, put",
"The points of cart_prod(x1,...,xk), with intervals and vectors in any order, are the concatenations of one point of each operand, in the order of the operands; cart_prod<N>, with sizes known when compiling, gives the same box. subvector(a,b) holds the components from a to b, both included: it contains the projection of every point of the box, and nothing else when the box has a point. put<I>(y) replaces the components from I on by those of y and keeps the others. The operands of a product are its subvectors.",
"every number of operands, every kind and size of operand (empty intervals included), every position",
"The claim is about all the points of boxes of any dimension and about products of any number of operands.",
["src/core/2/domains/interval/codac2_cart_prod.h: cart_prod, cart_prod_static", "src/core/2/domains/interval/codac2_cart_prod.cpp: cart_prod_dyn", "src/core/2/domains/interval/codac2_IntervalVector.h: subvector, put"])
p("C156","Matrices of intervals: intersection, union, conversions",
"The intersection of two matrices of intervals of the same sizes holds exactly the matrices of numbers which are in both. Their union holds the matrices of both, and each coefficient is the smallest interval with the two coefficients. The conversions of matrices of numbers between IBEX, Eigen and codac2 keep the sizes and the coefficients, and a conversion and back gives the same matrix.",
"every sizes, every coefficients (empty or unbounded included), every matrix of numbers",
"The claim is about all the matrices of numbers in a matrix of intervals, and all the sizes.",
["src/core/arithmetic/codac_matrix_arithmetic.cpp: operator&, operator|", "src/core/tools/codac_Eigen.cpp: i2e, e2i", "src/core/2/variables/codac2_Matrix.h: to_codac1"])
p("C157","Thick points: alignment, corners; center of a polygon",
"aligned(a,b,c) answers YES only if all the triples of points of the thick points are aligned, NO only if none is; for points, and operations which are not rounded, the answer is never MAYBE. push of a box gives four thick points whose smallest box is the box, with infinite bounds or not; for a bounded box, the four corners turn counterclockwise and their convex hull is the box. bounds_pts gives the corners of the box, each once. center() of a polygon contains the mean of its vertices, which is a point of the polygon.",
"every thick point (bounded, unbounded, degenerate), every list of vertices, every rounding outwards of the operations",
"The claim is about all the triples of points of three boxes, and all the points of a convex hull.",
["src/core/geometry/codac_ThickPoint.cpp: aligned, push, bounds_pts", "src/core/geometry/codac_Polygon.cpp: center"])
p("C158","Thick boxes: construction, intersection, inner parts",
"A thick box built from two boxes has for members the boxes with a lower corner in the first one and an upper corner in the second one, and lb() and ub() give the two boxes back. is_empty() is true exactly when there is no member. The intersection (&) of two thick boxes holds the intersections of their members; as soon as it is empty along one dimension, all its components are. subset_ext() gives points which are in all the members, and its flag tells whether some component is empty. inner_box() has no empty component: each one either holds numbers which are in all the members or, with its flag set, exactly the numbers x such that [x,x] is a member.",
"every thick box of any dimension, with bounds finite or not, and every member of it",
"The members of a thick box are an infinite set of boxes; tests look at a few.",
["src/unsupported/thickset/codac_ThickBox.h: ThickBox", "src/unsupported/thickset/codac_ThickBox_impl.hpp: subset_ext, inner_box, lb, ub, inter, is_empty"])
p("C159","Thick tests: images, thick functions, translations, sectors",
"The test of the image of a box by a function answers IN only if the images of all the points of the box are in y, OUT only if none is. A test composed with a function tells of the images what the test tells of the points. The test of a thick function (two functions for the bounds of the value) answers IN only if the values at all the points of the box are in y, OUT only if none meets y, and otherwise the value of each point is one of those of the answer. The test of a translation does the same for the box dX translated by each point. The test of a sector answers IN only if each point is in the sector and in the disk from each possible position of its vertex, OUT only if the disk is OUT or all the points are on the wrong side of one side from all the positions.",
"every box, every function with an inclusion function, every box y, every box of positions and every pair of directions",
"The claim is about all the points of a box and all the positions of the vertex.",
["src/unsupported/thickset/codac_ThickTest.h: ThinInverse, ThinfIn, ThickfIn, ThickTranslateInBox, ThickSector", "src/unsupported/thickset/codac_ThickTest.cpp: ThickfIn::test, ThickSector::testPlan, ThickSector::test", "src/unsupported/thickset/codac_ThickFunction.h: ThickFunction::eval"])
p("C160","Primitive of a trajectory with a time step",
"primitive(c, dt) ends for every dt > 0. Its samples are at the initial instant, then every dt, and at the final instant of the temporal domain; the first value is c and each value is the former one plus the area of the trapezoid between the two instants. If the trajectory varies by at most L per unit of time, each sample is at most at L dt (t - t0) / 2 of the exact primitive.",
"every trajectory, every bounded temporal domain (degenerated or not), every constant and every positive time step",
"The number of steps is not bounded, and the claim is about the integral of any function.",
["src/core/variables/trajectory/codac_Trajectory.cpp: primitive(double, double)"])

with open('/verif/properties.jsonl','w') as f:
    for q in P: f.write(json.dumps(q,ensure_ascii=False)+"\n")
print(len(P))
