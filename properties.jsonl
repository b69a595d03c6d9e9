{"id": "C01", "title": "Every reported solution is real", "statement": "Whenever BAndB::search hands a label vector to an onSolution callback, that vector is a feasible solution of the model (labels drawn from the label generator, transitions defined, ends in the target state, no earlier state passes the sink test) and its total transition cost equals the primal bound stored at that moment. This also holds when the time limit stops the search early.", "quantifier": "every layered model with in-range costs, every width, every time-limit behaviour, every initial primal, every number of iterations", "why_tests_cant": "the claim ranges over all user models and all search histories; a test fixes one instance", "anchors": ["src/search.cpp:BAndB::search", "src/dd.hpp:DD::update", "src/dd.hpp:Bounds::setIncumbent", "src/dd.cpp:AbstractDD::apply"]}
{"id": "C02", "title": "The primal bound only ever improves", "statement": "During a search every new primal is strictly better than the previous one, and the final primal is never worse than a primal the user set before the search (Bounds::attach keeps it).", "quantifier": "every model, width, time limit and history of callbacks", "why_tests_cant": "needs an invariant over an unbounded search loop", "anchors": ["src/dd.cpp:AbstractDD::apply", "src/dd.cpp:Bounds::attach", "src/dd.hpp:DD::update", "src/search.cpp:BAndB::search"]}
{"id": "C03", "title": "Search returns the optimum", "statement": "If BAndB::search ends because the queue is empty, then no feasible solution is strictly better than the final primal, for every model with valid merge, local bound and dominance functions.", "quantifier": "every valid layered model and every width", "why_tests_cant": "optimality quantifies over all solutions of all models and widths", "anchors": ["src/search.cpp:BAndB::search", "src/dd.cpp:Relaxed::computeCutSet", "src/dd.hpp:DDNodeAllocator::cloneNode"]}
{"id": "C04", "title": "Search terminates", "statement": "On a model with finitely many states whose diagrams are finite, BAndB::search performs at most as many main-loop iterations as there are states.", "quantifier": "every finite layered model, every width", "why_tests_cant": "termination is a claim about all runs", "anchors": ["src/search.cpp:BAndB::search", "src/dd.hpp:DDNodeAllocator::cloneNode"]}
{"id": "C05", "title": "Exact diagram gives the optimum", "statement": "After compute with the Exact strategy and no local bound, the sink value equals the best cost over all feasible solutions, or the sentinel if there is none.", "quantifier": "every finite acyclic model and every state it can reach", "why_tests_cant": "all models, all paths", "anchors": ["src/dd.cpp:Exact::compute", "src/dd.cpp:AbstractDD::computeBest"]}
{"id": "C06", "title": "Exact diagram incumbent", "statement": "After compute with the Exact strategy, if a solution exists then the incumbent label vector is a feasible solution whose cost is the sink value.", "quantifier": "every finite acyclic model", "why_tests_cant": "all models, all paths", "anchors": ["src/dd.cpp:Exact::compute", "src/dd.cpp:AbstractDD::incumbent"]}
{"id": "C07", "title": "A valid local bound does not change the exact diagram's value", "statement": "Supplying a valid (optimistic) local bound never changes the value computed by the Exact strategy.", "quantifier": "every model and valid local bound", "why_tests_cant": "all models and bounds", "anchors": ["src/dd.hpp:DD::transition", "src/dd.cpp:Exact::compute"]}
{"id": "C08", "title": "Restricted diagram is a primal bound", "statement": "The value of a Restricted diagram is the sentinel or the cost of a feasible solution, and the labels stored at the sink are that solution, so the value is never better than the optimum.", "quantifier": "every model (layered or not), width, root node, dominance function and primal bound", "why_tests_cant": "all models, all widths, all truncation points", "anchors": ["src/dd.cpp:Restricted::compute", "src/dd.cpp:WidthBounded::tighten"]}
{"id": "C09", "title": "Restricted diagram that reports exact is optimal", "statement": "If a Restricted diagram was not truncated (isExact), its value is at least as good as every solution from its root that improves on the primal bound.", "quantifier": "every layered valid model, width, root node, primal", "why_tests_cant": "all models and widths", "anchors": ["src/dd.cpp:Restricted::compute", "src/dd.hpp:AbstractDD::isExact"]}
{"id": "C10", "title": "Restricted diagram respects its width", "statement": "No layer of a compiled Restricted diagram of width w >= 1 has more than w nodes.", "quantifier": "every layered model and width", "why_tests_cant": "all models and layer sizes", "anchors": ["src/dd.cpp:Restricted::compute", "src/dd.cpp:WidthBounded::estimate"]}
{"id": "C11", "title": "Relaxed diagram is a dual bound", "statement": "The value of a Relaxed diagram is at least as good as every solution from its root that improves on the primal bound, provided the merge, local bound and dominance functions are valid.", "quantifier": "every layered valid model, width, root node, primal", "why_tests_cant": "all models, widths, merge sequences", "anchors": ["src/dd.cpp:Relaxed::compute", "src/dd.cpp:Relaxed::mergeLayer", "src/dd.cpp:WidthBounded::tighten"]}
{"id": "C12", "title": "Relaxed diagram that reports exact is optimal and feasible", "statement": "If no merge took place (isExact) the Relaxed sink value is the cost of the feasible solution stored at the sink and is at least as good as every improving solution.", "quantifier": "every layered valid model, width, root node, primal", "why_tests_cant": "all models and widths", "anchors": ["src/dd.cpp:Relaxed::compute", "src/dd.hpp:DD::update"]}
{"id": "C13", "title": "Exact nodes of a relaxed diagram are genuine", "statement": "Every non-sink node of a Relaxed diagram flagged exact carries a label vector that leads from the initial state to the node's state at exactly the node's bound.", "quantifier": "every layered model, width, root node", "why_tests_cant": "all merge sequences", "anchors": ["src/dd.hpp:DD::makeNode", "src/dd.cpp:Relaxed::mergePair", "src/node.hpp:ANode::copyBoundAndLabels"]}
{"id": "C14", "title": "The cut set covers every improving solution", "statement": "Every solution from the root of an inexact Relaxed diagram that improves on the primal is represented by a cut-set node with at least as good a bound.", "quantifier": "every layered valid model, width, root", "why_tests_cant": "all models, all paths", "anchors": ["src/dd.cpp:Relaxed::computeCutSet"]}
{"id": "C15", "title": "Backward bounds are valid", "statement": "For every node of a Relaxed diagram the backward bound is at least as good as the cost of every completion from that node which would improve on the primal bound.", "quantifier": "every layered valid model, width, node and completion", "why_tests_cant": "all models, all completions", "anchors": ["src/dd.cpp:AbstractDD::computeBestBackward", "src/dd.cpp:Relaxed::compute"]}
{"id": "C16", "title": "Relaxed layers respect the width when merging never fails", "statement": "When the merge function never refuses a pair of states of one layer and no dominance function is given, no layer of a compiled Relaxed diagram has more than max(width,1) nodes.", "quantifier": "every layer size, width and total merge function", "why_tests_cant": "all layers, all widths", "anchors": ["src/dd.cpp:Relaxed::mergeLayer", "src/dd.cpp:Relaxed::mergeOne"]}
{"id": "C17", "title": "Merging keeps the diagram's arcs", "statement": "Transferring the arcs of a merged node to its replacement leaves every parent with the same outgoing arcs (redirected), gives the replacement exactly the union of incoming arcs, and detaches the donor.", "quantifier": "every diagram, donor and receiver", "why_tests_cant": "all graph shapes", "anchors": ["src/dd.cpp:Relaxed::transferArcs", "src/node.cpp:ANode::disconnect", "src/node.cpp:ANode::addArc"]}
{"id": "C18", "title": "Forward sweep is insertion-order independent", "statement": "AbstractDD::computeBest sets every node's bound to the best sum along paths from the root of any acyclic diagram, whatever the order in which nodes were created.", "quantifier": "every acyclic diagram", "why_tests_cant": "all graph shapes and creation orders", "anchors": ["src/dd.cpp:AbstractDD::computeBest", "src/heap.hpp:Heap"]}
{"id": "C19", "title": "Backward sweep is insertion-order independent", "statement": "AbstractDD::computeBestBackward sets every node's backward bound to the best over its outgoing arcs of cost plus the child's backward bound, in any acyclic diagram.", "quantifier": "every acyclic diagram", "why_tests_cant": "all graph shapes and creation orders", "anchors": ["src/dd.cpp:AbstractDD::computeBestBackward", "src/heap.hpp:Heap"]}
{"id": "C20", "title": "Dominance never breaks the diagram", "statement": "Using a valid dominance function never makes diagram compilation touch a node outside the diagram and never loses an improving solution.", "quantifier": "every valid dominance function", "why_tests_cant": "all models", "anchors": ["src/dd.cpp:Restricted::checkDominance", "src/dd.cpp:LQueue::checkDominance", "src/node.hpp:ANList::pop_back"]}
{"id": "C21", "title": "Widening makes progress", "statement": "When the cut set is the root itself, the search widens the relaxation and processes the root again.", "quantifier": "every model and width", "why_tests_cant": "all models", "anchors": ["src/search.cpp:125-129", "src/dd.hpp:DDNodeAllocator::cloneNode"]}
{"id": "C22", "title": "A better way to reach a known state is not lost", "statement": "If the search reaches a state again with a strictly better bound, the better node is explored.", "quantifier": "every model and history", "why_tests_cant": "all histories", "anchors": ["src/dd.hpp:DDNodeAllocator::cloneNode", "src/search.cpp:163-181"]}
{"id": "C23", "title": "Objective sense laws", "statement": "For both Minimize and Maximize, better is a strict total order, betterEQ its reflexive closure, adding a constant to both sides preserves them, and the initial bound is worse than every value in the open int range.", "quantifier": "all values", "why_tests_cant": "all pairs and triples of values", "anchors": ["src/dd.hpp:Minimize", "src/dd.hpp:Maximize", "src/dd.hpp:DD::better"]}
{"id": "C24", "title": "Heap is a priority queue", "statement": "Any sequence of insertHeap, extractMax and remove on Heap behaves like a bag of (handle,value) pairs: extractMax returns an element no other element is ordered before, and the other elements keep their handles and values, across growth.", "quantifier": "every operation sequence, initial capacity >= 1, strict weak order", "why_tests_cant": "all operation histories and sizes", "anchors": ["src/heap.hpp:Heap"]}
{"id": "C25", "title": "Heap decrease and buildHeap", "statement": "After arbitrary inserts and one buildHeap, and after any decrease of an element, extractMax returns a minimal element.", "quantifier": "every content and order of decreases", "why_tests_cant": "all histories", "anchors": ["src/heap.hpp:Heap::buildHeap", "src/heap.hpp:Heap::decrease"]}
{"id": "C26", "title": "Heap find agrees with the content", "statement": "Heap::find(v) returns a location if and only if v is currently in the heap.", "quantifier": "every history", "why_tests_cant": "stale slots depend on the history", "anchors": ["src/heap.hpp:Heap::find"]}
{"id": "C27", "title": "CQueue is FIFO across growth", "statement": "Any sequence of enQueue/deQueue/peek/clear/size/empty on CQueue behaves like an unbounded FIFO list.", "quantifier": "every operation sequence and every initial size", "why_tests_cant": "wrap-around and growth can interleave in unboundedly many ways", "anchors": ["src/queue.hpp:CQueue"]}
{"id": "C28", "title": "CQueue traversals visit the queue in order", "statement": "doOnAll visits exactly the queued values in FIFO order; foldl stops at the first non-null accumulator.", "quantifier": "every reachable queue", "why_tests_cant": "all wrap-around positions", "anchors": ["src/queue.hpp:CQueue::doOnAll", "src/queue.hpp:CQueue::foldl"]}
{"id": "C29", "title": "CQueue retract removes one element and keeps the rest", "statement": "retract(location) removes exactly that element; the other elements stay queued in their FIFO order.", "quantifier": "every reachable queue and live location", "why_tests_cant": "all positions", "anchors": ["src/queue.hpp:CQueue::retract"]}
{"id": "C30", "title": "mergeSort sorts", "statement": "mergeSort leaves a permutation of the input that is sorted by the comparator, whatever the input.", "quantifier": "every array length and content, strict or non-strict total preorder", "why_tests_cant": "all inputs", "anchors": ["src/msort.hpp:mergeSort", "src/msort.hpp:mergeSortAux"]}
{"id": "C31", "title": "mergeSort is stable", "statement": "Elements that compare equal keep their relative order.", "quantifier": "every array", "why_tests_cant": "all inputs", "anchors": ["src/msort.hpp:mergeSortAux"]}
{"id": "C32", "title": "Vec is a list", "statement": "push_back, pop_back, clear, copy, assignment and indexing on Vec behave as on a mathematical list across growth, and remove(i) drops exactly the i-th element (replacing it by the last).", "quantifier": "every operation sequence and initial capacity", "why_tests_cant": "all histories", "anchors": ["src/vec.hpp:Vec"]}
{"id": "C33", "title": "Writing through v[i] keeps the other elements", "statement": "Assigning v[i] = x on a Vec changes only element i.", "quantifier": "every vector and index", "why_tests_cant": "all vectors", "anchors": ["src/vec.hpp:TVecSetter"]}
{"id": "C34", "title": "Pool blocks are disjoint and in bounds", "statement": "Blocks returned by Pool::allocate are 16-byte aligned inside a segment, lie inside that segment and never overlap a block that is still live.", "quantifier": "every sequence of allocate/mark/clear with LIFO marks", "why_tests_cant": "all histories and sizes", "anchors": ["src/store.cpp:Pool::allocate", "src/store.hpp:Pool::clear"]}
{"id": "C35", "title": "Clearing to a mark protects older blocks", "statement": "After clear(mark), no later allocation overlaps a block allocated before the mark was taken.", "quantifier": "every history", "why_tests_cant": "all histories", "anchors": ["src/store.hpp:Pool::mark", "src/store.hpp:Pool::clear"]}
{"id": "C36", "title": "Pool usage reflects live memory", "statement": "usage() after clear(m) equals usage() when m was taken.", "quantifier": "every history", "why_tests_cant": "all histories", "anchors": ["src/store.hpp:Pool::usage"]}
{"id": "C37", "title": "Hash tables are maps", "statement": "LHashtable::getLoc finds a node iff one with an equal state was inserted since the last clear and returns that node; Hashtable insert/get/size behave as a finite map with overwrite.", "quantifier": "every operation sequence, hash function consistent with equality, table size", "why_tests_cant": "all histories and collisions", "anchors": ["src/lighthash.hpp:LHashtable", "src/hashtable.hpp:Hashtable"]}
{"id": "C38", "title": "Clear forgets everything", "statement": "After clear() no previously inserted key is found.", "quantifier": "every number of clears", "why_tests_cant": "the stamp is a 32-bit counter", "anchors": ["src/lighthash.hpp:LHashtable::clear", "src/hashtable.hpp:Hashtable::clear"]}
{"id": "C39", "title": "Hash table sizing", "statement": "For a requested size n the table gets the smallest listed prime that is at least n (or the largest listed prime), and bucket indices are in range.", "quantifier": "every requested size", "why_tests_cant": "all sizes", "anchors": ["src/lighthash.hpp:LHashtable::LHashtable", "src/hashtable.hpp:Hashtable::Hashtable"]}
{"id": "C40", "title": "Union-find maintains the partition", "statement": "After any sequence of makeSet/merge/setFor, two nodes have the same representative iff they are connected by the merges performed; path compression never changes the partition, and a root's size is its class size.", "quantifier": "every operation sequence", "why_tests_cant": "all histories", "anchors": ["src/uf.hpp:UnionFind"]}
{"id": "C41", "title": "Union-find merge returns the representative", "statement": "merge(a,b) returns the representative of the merged set.", "quantifier": "every forest", "why_tests_cant": "all shapes", "anchors": ["src/uf.hpp:UnionFind::merge"]}
{"id": "C42", "title": "Node list is a list", "statement": "ANList push_back/pop_back/remove/iteration behave as on a duplicate-free list.", "quantifier": "every operation sequence on members", "why_tests_cant": "all histories", "anchors": ["src/node.hpp:ANList"]}
{"id": "C43", "title": "NDArray is a list with erasure", "statement": "Iterating NDArray yields the pushed nodes minus the erased ones in order, and size() is their number.", "quantifier": "every history", "why_tests_cant": "all histories", "anchors": ["src/dd.hpp:NDArray"]}
{"id": "C44", "title": "Matrix cells do not alias", "statement": "Two in-range index tuples of an FMatrix denote the same storage cell only if they are equal, and every in-range tuple stays inside the storage.", "quantifier": "every arity and dimensions", "why_tests_cant": "all dimensions", "anchors": ["src/util.hpp:FMatrix", "src/util.hpp:FMatrixProxyCst", "src/util.hpp:prodOf"]}
{"id": "C45", "title": "FArray equality and hash", "statement": "FArray equality is element-wise equality and equal arrays have equal hashes.", "quantifier": "all arrays", "why_tests_cant": "all arrays", "anchors": ["src/util.hpp:FArray"]}
{"id": "C46", "title": "Range iteration", "statement": "A Range iterates its size() values in order and stops; close(f,t) yields f..t inclusive in either direction; open(f,t) yields all but t; closeInc/openInc yield increasing ranges or nothing.", "quantifier": "all endpoints", "why_tests_cant": "all endpoints", "anchors": ["src/util.hpp:Range"]}
{"id": "C47", "title": "Range contains agrees with iteration", "statement": "contains(p) holds iff iteration yields p.", "quantifier": "all ranges and points", "why_tests_cant": "all endpoints", "anchors": ["src/util.hpp:Range::contains"]}
{"id": "C48", "title": "Range flip reverses", "statement": "r.flip() iterates the values of r in reverse order.", "quantifier": "all ranges", "why_tests_cant": "all endpoints", "anchors": ["src/util.hpp:Range::flip"]}
{"id": "C49", "title": "GNSet set algebra", "statement": "insert, remove, contains, union, intersection, difference, complement-within-capacity, removeBelow, size, empty, == and != on GNSet agree with finite sets of naturals, across growth.", "quantifier": "all sets within the supported capacity", "why_tests_cant": "all sets and word counts", "anchors": ["src/util.hpp:GNSet"]}
{"id": "C50", "title": "GNSet iteration", "statement": "Iterating a GNSet yields its members in strictly increasing order, each once; min and max return the extremes.", "quantifier": "all sets", "why_tests_cant": "all sets; word boundaries", "anchors": ["src/util.hpp:GNSet::iterator", "src/util.hpp:min", "src/util.hpp:max"]}
{"id": "C51", "title": "GNSet equal sets hash equally", "statement": "Two GNSets that compare equal have the same hash.", "quantifier": "all pairs of sets", "why_tests_cant": "equal content can have different word counts", "anchors": ["src/util.hpp:GNSet::hash", "src/util.hpp:operator=="]}
{"id": "C52", "title": "GNSet removeAbove", "statement": "removeAbove(p) leaves exactly the members <= p.", "quantifier": "all sets and p", "why_tests_cant": "depends on a size field that earlier operations leave stale", "anchors": ["src/util.hpp:GNSet::removeAbove"]}
{"id": "C53", "title": "GNSet insert always terminates", "statement": "Inserting any non-negative int into any GNSet terminates and the value is then contained.", "quantifier": "all sets and values", "why_tests_cant": "capacity arithmetic on 16-bit counters", "anchors": ["src/util.hpp:GNSet::insert"]}
{"id": "C54", "title": "NatSet set algebra and hash", "statement": "insert, contains, union, intersection, complement, size, empty, largest, ==, iteration on NatSet agree with sets of naturals below 64*nbw, and equal sets hash equally.", "quantifier": "all sets and word counts", "why_tests_cant": "all sets", "anchors": ["src/util.hpp:NatSet"]}
{"id": "C55", "title": "NatSet difference-from-offset", "statement": "ofs - S is the set { ofs - v | v in S } whenever max(S) <= ofs < 64*nbw.", "quantifier": "all sets, offsets and word counts", "why_tests_cant": "shift amounts cross word boundaries in many ways", "anchors": ["src/util.hpp:NatSet::NatSet(int,const NatSet&)"]}
{"id": "C56", "title": "Bit reversal", "statement": "revBitsOfLong reverses the 64 bits of its argument; revBitsOfByte the 8 bits; revBitsOfWord is meant to do the same as revBitsOfLong.", "quantifier": "all words", "why_tests_cant": "2^64 inputs", "anchors": ["src/util.hpp:revBitsOfLong", "src/util.hpp:revBitsOfByte", "src/util.hpp:revBitsOfWord"]}
{"id": "C57", "title": "Node allocator ids are unique", "statement": "LPool hands out every id once, and claimNode returns a released node that is not handed out again until released again.", "quantifier": "every history", "why_tests_cant": "all histories", "anchors": ["src/pool.hpp:LPool"]}
{"id": "C58", "title": "Stack allocator", "statement": "CoreAlloc returns disjoint in-bounds blocks and throws exactly when the request does not fit.", "quantifier": "every history", "why_tests_cant": "all histories", "anchors": ["src/stlAllocAdapter.hpp:CoreAlloc"]}
{"id": "C59", "title": "Knapsack relaxation is valid", "statement": "The knapsack example's merge (keep the larger remaining capacity) is a valid relaxation: the merged state has a completion at least as good as each merged state's, so the engine's dual-bound guarantee applies to it.", "quantifier": "every instance", "why_tests_cant": "all instances", "anchors": ["examples/knapsack.cpp"]}
{"id": "C60", "title": "Knapsack dominance is valid", "statement": "The dominance rule of the second knapsack example (more remaining capacity dominates) never discards a better solution.", "quantifier": "every instance and every pair of states the search compares", "why_tests_cant": "all instances", "anchors": ["examples/knapsack2.cpp"]}
{"id": "C61", "title": "Independent-set relaxation and bound are valid", "statement": "The MISP example's union merge is a valid relaxation and its sum-of-weights local bound is optimistic.", "quantifier": "every graph with non-negative weights", "why_tests_cant": "all graphs", "anchors": ["examples/misp5.cpp"]}
{"id": "C62", "title": "TSP relaxation is valid", "statement": "The TSP example's merge is a valid relaxation.", "quantifier": "every instance", "why_tests_cant": "all instances", "anchors": ["examples/tsp.cpp"]}
{"id": "C63", "title": "Toy example relaxation is valid", "statement": "The merge used by the first example (foo) is a valid relaxation.", "quantifier": "every instance", "why_tests_cant": "all instances", "anchors": ["examples/foo.cpp"]}
{"id": "C64", "title": "Compilation terminates without undefined behaviour", "statement": "For a layered model whose reachable ranks are bounded, compiling a relaxed and a restricted diagram and extracting the cut set all finish, with a number of layer rounds bounded by the rank span, and never dereference a missing location or extract from an empty heap.", "quantifier": "every layered model, width, primal bound and root", "why_tests_cant": "tests sample models and widths; absence of hangs and of invalid accesses is a universal claim", "anchors": ["src/dd.cpp:200-302", "src/dd.cpp:407-462", "src/dd.cpp:684-792"]}
{"id": "C65", "title": "Relaxed layers respect the width also with dominance", "statement": "When the merge function never refuses a pair, no layer of a compiled Relaxed diagram has more than max(width,1) nodes, also when a dominance function is given.", "quantifier": "every layered model with a dominance function and every width", "why_tests_cant": "needs a dominated state to be produced again by a merge in the same layer", "anchors": ["src/dd.cpp:572-595", "src/dd.hpp:517-539"]}
{"id": "C66", "title": "Exact compilation terminates", "statement": "Compute with the Exact strategy returns on every acyclic model with finitely many reachable states; its queue loop runs at most once per reachable non-terminal state.", "quantifier": "every finite acyclic model, with or without local bound, from every non-terminal state", "why_tests_cant": "termination over all models", "anchors": ["src/dd.cpp:Exact::compute"]}
{"id": "C67", "title": "Exact diagram has one node per reachable state", "statement": "After compute with the Exact strategy and no local bound, the nodes are exactly the reachable states and the sink, each once, and every node's bound and labels are those of a best path to it.", "quantifier": "every finite acyclic model", "why_tests_cant": "all models, all states", "anchors": ["src/dd.cpp:Exact::compute", "src/dd.hpp:DD::makeNode", "src/dd.cpp:AbstractDD::computeBest"]}
{"id": "C68", "title": "Stack adapter gives room for the objects", "statement": "StackAdapter<T>::allocate(n) returns an address with room for n objects of type T inside the buffer, aligned for T, or throws.", "quantifier": "every n, every object size, every earlier allocation", "why_tests_cant": "sizes near 2^64/sizeof(T) and all mixes of types", "anchors": ["src/stlAllocAdapter.hpp:StackAdapter"]}
{"id": "C69", "title": "FArray has value semantics", "statement": "Copying, assigning and moving an FArray gives an array with the elements of the source, and assignment works for every target, including one that was moved from.", "quantifier": "all arrays and elements", "why_tests_cant": "all arrays", "anchors": ["src/util.hpp:FArray"]}
{"id": "C70", "title": "Folds over sets", "statement": "filter(s,p) holds exactly the members of s satisfying p, sum(s,t) adds t over the members, and min/max(s,p,t) are the attained extreme values of t over the members satisfying p, or the sentinel when there is none.", "quantifier": "all sets, predicates and terms", "why_tests_cant": "all sets and functions", "anchors": ["src/util.hpp:filter", "src/util.hpp:sum", "src/util.hpp:min", "src/util.hpp:max"]}
{"id": "C71", "title": "Second knapsack local bound is optimistic", "statement": "The local bound of the second knapsack example (fill greedily, then add the fractional share of the first item that does not fit) is never below the profit of any way to complete the packing from that state.", "quantifier": "every instance sorted by profit per weight, every state", "why_tests_cant": "all instances; the fraction is computed in floating point", "anchors": ["examples/knapsack2.cpp"]}
{"id": "C72", "title": "Second knapsack initial bound is achievable", "statement": "The initial primal bound the second knapsack example hands to the engine (getUB) is the profit of a packing within capacity.", "quantifier": "every instance", "why_tests_cant": "all instances, including ones where every item fits", "anchors": ["examples/knapsack2.cpp"]}
{"id": "C73", "title": "The independent-set checker totals the solution", "statement": "The solution callback of the MISP example computes the total weight of the solution it is handed, reading only labels the solution has.", "quantifier": "every graph, every solution the engine reports", "why_tests_cant": "reading past a vector's end usually goes unnoticed in a test", "anchors": ["examples/misp5.cpp", "src/dd.hpp"]}
{"id": "C74", "title": "Enough width makes the search exact", "statement": "If no layer of the model has more reachable states than the width, the relaxed diagram merges nothing, a restricted diagram (one state less) cuts nothing, and BAndB::search, unless stopped by the time limit, ends with the optimum.", "quantifier": "every layered model, every width at least as large as its largest layer, every starting primal", "why_tests_cant": "all models, all widths; optimality quantifies over every solution", "anchors": ["src/dd.cpp:Relaxed::mergeLayer", "src/dd.cpp:Restricted::compute", "src/search.cpp:BAndB::search"]}
{"id": "C75", "title": "States reached at several depths", "statement": "On a finite acyclic model in which a state can be reached by label sequences of different lengths, the relaxed diagram is still a dual bound and the search still returns the optimum.", "quantifier": "every finite acyclic model, width and primal", "why_tests_cant": "depends on the order in which layers are expanded; all models and widths", "anchors": ["src/dd.cpp:Relaxed::compute", "src/search.cpp:BAndB::search"]}
{"id": "C76", "title": "The spanning-tree bound of tsp_test4", "statement": "At every state of the TSP model, merged or not, mst() ends and returns at most the length of every way of completing the tour from that state; merging keeps all completions.", "quantifier": "all instances with non-negative distances, all states and completions", "why_tests_cant": "the bound is only tight by accident; a wrong bound shows as a lost optimum on rare instances", "anchors": ["examples/tsp_test4.cpp:mst", "src/uf.hpp:merge", "src/heap.hpp:extractMax"]}
{"id": "C77", "title": "The local bound of tsp_test4", "statement": "The local bound max(mst, greedy) is defined at every state and never exceeds the length of any completion, so the search with it returns a shortest tour.", "quantifier": "all instances, all states", "why_tests_cant": "the value at the root comes from memory never written, which is often zero in a test", "anchors": ["examples/tsp_test4.cpp:greedy", "examples/tsp_test4.cpp:local", "src/search.cpp:BAndB::search"]}
{"id": "C78", "title": "The colouring example solves graph colouring", "statement": "The model of coloringtoy has a solution of cost at most q exactly if the graph can be coloured with q colours, although vertex colours must enter in order and sets of legal colours are passed along; merging two states keeps every completion of either at its cost.", "quantifier": "all graphs, all q, all states", "why_tests_cant": "symmetry breaking that cuts off every optimal colouring shows only on particular graphs and vertex orders", "anchors": ["examples/coloringtoy.cpp:main"]}
{"id": "C79", "title": "Search with labels that depend on the primal bound", "statement": "With a label generator that reads the current primal bound and drops colours beyond it, every relaxed diagram still bounds from below all colourings that improve on the bound, every reported vector is a proper colouring with as many colours as its value, the search ends, and it ends with the chromatic number.", "quantifier": "all graphs, widths, time limits", "why_tests_cant": "the label sets change while the search runs; a lost colouring shows only for particular improvement sequences", "anchors": ["examples/coloringtoy.cpp:main", "src/search.cpp:BAndB::search"]}
{"id": "C80", "title": "The Golomb ruler example solves the Golomb ruler problem", "statement": "The solutions of the gruler model are exactly the rulers with n marks starting at 0, all distances between marks different, of length at most L+1, and the cost is the length; merging two states keeps every completion of either at its cost.", "quantifier": "all n, L, states and label sequences", "why_tests_cant": "a wrongly accepted or rejected ruler shows only for particular mark sets", "anchors": ["examples/gruler.cpp:main"]}
{"id": "C81", "title": "Golomb ruler label generator and search", "statement": "If the table of known lengths holds lower bounds, the marks the generator leaves out lead to no ruler shorter than the primal bound; every relaxed diagram bounds all shorter rulers from below; every reported vector is a ruler of the reported length; the search ends, and it ends with a shortest ruler.", "quantifier": "all n, L, tables of lower bounds, widths, time limits, primal bounds", "why_tests_cant": "labels depend on the run so far; an over-eager limit loses only rare optimal rulers", "anchors": ["examples/gruler.cpp:main", "src/search.cpp:BAndB::search"]}
{"id": "C82", "title": "State sets and state equality of the Golomb ruler example", "statement": "The set operations of the transition compute the sets of marks and distances, and two states that compare equal can be completed in the same ways.", "quantifier": "all reachable states and labels, merged or not", "why_tests_cant": "depends on bit positions and on which states share a hash", "anchors": ["examples/gruler.cpp:SGRuler", "examples/gruler.cpp:main", "src/util.hpp:NatSet"]}
{"id": "C83", "title": "First independent-set example: solutions, merge, dual bound", "statement": "The label sequences of misp.cpp from root to sink are exactly the independent sets in increasing order that no later vertex can join, with their weight as cost; every independent set is contained in one; the union merge keeps a completion at least as heavy for both states; so every relaxed diagram bounds every independent set.", "quantifier": "all graphs, non-negative weights, widths, primal bounds, reachable states", "why_tests_cant": "needs all paths of all graphs, and merged states no exact run reaches", "anchors": ["examples/misp.cpp:main"]}
{"id": "C84", "title": "First independent-set example: the search", "statement": "Everything the search reports on misp.cpp is an independent set of the reported weight, the search ends, and it ends with a heaviest independent set.", "quantifier": "all graphs, non-negative weights with total at most INT_MAX, widths, time limits", "why_tests_cant": "a wrong final answer looks like any other answer", "anchors": ["examples/misp.cpp:main", "src/search.cpp:BAndB::search"]}
{"id": "C85", "title": "Include/exclude independent-set example: the search", "statement": "Everything the search reports on misp5.cpp is an independent set of the reported weight, the search ends, and it ends with a heaviest independent set.", "quantifier": "all graphs, non-negative weights, widths, time limits", "why_tests_cant": "a wrong final answer looks like any other answer; the first losing unit-weight graphs at width 2 have eleven vertices", "anchors": ["examples/misp5.cpp:main", "src/search.cpp:BAndB::search"]}
{"id": "C86", "title": "The edge loop of the independent-set checkers", "statement": "The checker accepts a solution exactly when no edge has both ends in it.", "quantifier": "all graphs without loops and all incumbents", "why_tests_cant": "the checker is the test; its own reading of the incumbent is never checked", "anchors": ["examples/misp.cpp:main", "examples/misp5.cpp:main"]}
{"id": "C87", "title": "Greedy clique partition", "statement": "maximalCliquePartition terminates and returns non-empty cliques that contain every vertex exactly once, each maximal among the vertices not in an earlier one, and CliqueOfVertex names the clique of each vertex.", "quantifier": "all graphs", "why_tests_cant": "a vertex left out or two non-adjacent vertices put together make a bound too small only on some inputs", "anchors": ["examples/misp4_lag.cpp:maximalCliquePartition", "examples/misp4_lag.cpp:findMaximalClique", "examples/misp4_lag.cpp:isClique"]}
{"id": "C88", "title": "Clique and Lagrangian bounds", "statement": "CliqueBound, LagBound and lagrangianDual never return less than the weight of an independent set among the selectable vertices, and lagrangianDual leaves multipliers for which this stays true.", "quantifier": "all graphs, weights, vertex sets, valid multipliers, step sizes and iteration counts", "why_tests_cant": "a bound slightly too small cuts the optimum only when it happens to be compared at that state", "anchors": ["examples/misp4_lag.cpp:CliqueBound", "examples/misp4_lag.cpp:LagBound", "examples/misp4_lag.cpp:lagrangianDual", "examples/misp4_lag.cpp:updateMultipliers"]}
{"id": "C89", "title": "Local bounds that keep state", "statement": "A local bound that changes what it captures on BBCtx calls keeps the guarantees of the search, as long as every answer it can give is valid: reported solutions are real, the search ends, and the answer is optimal under the same conditions as with a pure bound.", "quantifier": "all models, all stateful bounds with an invariant, widths, time limits", "why_tests_cant": "the sequence of calls depends on the whole run", "anchors": ["src/search.cpp:BAndB::search", "examples/misp4_lag.cpp:main"]}
{"id": "C90", "title": "Independent-set examples with clique and Lagrangian bounds: the search", "statement": "With any of the three local bounds, everything the search of misp4.cpp and misp4_lag.cpp reports is an independent set of the reported weight, the search ends, and it ends with a heaviest independent set.", "quantifier": "all graphs, non-negative weights, the three bounds, widths, time limits", "why_tests_cant": "a wrong final answer looks like any other; the Lagrangian multipliers depend on every earlier call", "anchors": ["examples/misp4.cpp:main", "examples/misp4_lag.cpp:main", "src/search.cpp:BAndB::search"]}
{"id": "C91", "title": "Second and third independent-set examples: solutions, merge, bound, dual bound", "statement": "In misp2.cpp and misp3.cpp a solution is a list of take/leave decisions, each about the first vertex that is neither decided nor joined to a taken one; the lists describe exactly the independent sets and the objective is the weight. Merging loses no completion, misp3's local bound is never too small, and the relaxed bound is at least the weight of every independent set better than the incumbent.", "quantifier": "all graphs, non-negative weights, states, widths", "why_tests_cant": "the skipping loop runs over arbitrary sets and the claim is about every completion of every merged state", "anchors": ["examples/misp2.cpp:main", "examples/misp3.cpp:main"]}
{"id": "C92", "title": "Second and third independent-set examples: the search", "statement": "Everything the searches of misp2.cpp and misp3.cpp report reads as an independent set of the reported weight, both searches end, and they end with a heaviest independent set.", "quantifier": "all graphs, non-negative weights, widths, time limits", "why_tests_cant": "a wrong final answer looks like any other; the claim covers every run", "anchors": ["examples/misp2.cpp:main", "examples/misp3.cpp:main", "src/search.cpp:BAndB::search"]}
{"id": "C93", "title": "Three more TSP examples: solutions and merging", "statement": "The label sequences tsptw.cpp, tsp_test2.cpp and tsp_test3.cpp accept from the initial to the target state are exactly the tours, at their lengths, and a merged state keeps every completion of both states at the same length, also when the labels of a tsp_test3 state leave out the cities on some way into it.", "quantifier": "all instances, states, completions", "why_tests_cant": "a merge that loses one completion of one pair of states only shows as a wrong bound on particular instances and widths", "anchors": ["examples/tsptw.cpp:main", "examples/tsp_test2.cpp:main", "examples/tsp_test3.cpp:main"]}
{"id": "C94", "title": "Local bounds of the other TSP examples", "statement": "The local bounds of tsptw.cpp (cheapest arcs, fractions dropped), tsp_test2.cpp (spanning tree) and tsp_test3.cpp (cheapest arcs) are defined at every state and never exceed the length of a completion, so the relaxed diagrams stay below every shorter tour.", "quantifier": "all instances, states, widths", "why_tests_cant": "reads of unwritten memory and extractions from an empty heap give plausible values in tests", "anchors": ["examples/tsptw.cpp:greedy", "examples/tsp_test2.cpp:mst", "examples/tsp_test3.cpp:Greedy"]}
{"id": "C95", "title": "The searches of the TSP examples", "statement": "Everything the searches of tsp.cpp, tsp_test2.cpp, tsp_test3.cpp, tsp_test4.cpp and tsptw.cpp report is a tour with its length, the searches end, and they end with a shortest tour.", "quantifier": "all instances, widths, time limits", "why_tests_cant": "a tour that is not shortest looks like any other answer; the claim covers every run", "anchors": ["examples/tsp.cpp:main", "examples/tsptw.cpp:main", "examples/tsp_test3.cpp:main", "src/search.cpp:BAndB::search"]}
{"id": "C96", "title": "The colouring examples that read a file: solutions, merging, bounds", "statement": "The label sequences coloring.cpp, coloring2.cpp and coloring3.cpp accept are the proper colourings with colours up to the bound of the file that use their colours in order, at the largest colour; a solution with at most q colours exists exactly if min(q, bound) colours are enough; merged states keep every completion of both states, and the relaxed diagrams never exceed a better colouring.", "quantifier": "all graphs, bounds in the file, primal bounds, states, widths", "why_tests_cant": "the label sets shrink with the primal bound and with states; a lost colouring shows only on particular graphs and widths", "anchors": ["examples/coloring.cpp:main", "examples/coloring2.cpp:main", "examples/coloring3.cpp:main"]}
{"id": "C97", "title": "The searches of the colouring examples that read a file", "statement": "Everything the searches of coloring.cpp, coloring2.cpp and coloring3.cpp report is a proper colouring that passes the check of the incumbent; the searches end; with a bound below the chromatic number they report nothing, otherwise they end with the chromatic number.", "quantifier": "all graphs, bounds in the file, widths, time limits", "why_tests_cant": "a colouring with one colour too many looks like any other answer", "anchors": ["examples/coloring.cpp:main", "examples/coloring2.cpp:main", "examples/coloring3.cpp:main", "src/search.cpp:BAndB::search"]}
{"id": "C98", "title": "The first toy TSP example models the shortest tour", "statement": "The paths of tsptoy.cpp are the tours of the cities with their lengths; a merged state keeps every completion of both states at the same length; the relaxed diagram is at most the length of every tour shorter than the primal bound; distances are asked of two different cities only, so the lookup never throws.", "quantifier": "all numbers of cities from 2, all distances, all merge tests, all widths", "why_tests_cant": "the program has one instance; a merge that loses a tour shows only on distances where that tour is the shortest", "anchors": ["examples/tsptoy.cpp:main"]}
{"id": "C99", "title": "The searches of the first toy TSP example", "statement": "Everything the search of tsptoy.cpp reports is a tour with its length; the search ends; it ends with a shortest tour.", "quantifier": "all numbers of cities from 2, all distances, all widths, all time limits", "why_tests_cant": "a tour that is not shortest looks like any other answer", "anchors": ["examples/tsptoy.cpp:main", "src/search.cpp:BAndB::search"]}
{"id": "C100", "title": "The second toy TSP example answers right at every width", "statement": "The search of tsptoy2.cpp ends, reports only tours with their lengths, and unless stopped ends with a shortest tour, at every width; its relaxed diagrams are exact at every width, because each merge it asks for gives a state of a lower layer and is refused; distances are asked of two different cities only.", "quantifier": "all numbers of cities from 2, all distances, all widths, all time limits", "why_tests_cant": "the merge function alone is no valid relaxation, so the answer is right only because of what is reachable on every instance", "anchors": ["examples/tsptoy2.cpp:main", "src/dd.hpp:DD::merge", "src/search.cpp:BAndB::search"]}
{"id": "C101", "title": "A merge into a lower layer is refused and leaves the diagram exact", "statement": "If every merge of two reachable states of a layer gives an open state reachable in a lower layer, the relaxed diagram is the one compiled without merge function and is exact, at every width, and the search ends with the optimum of the problem without merge function.", "quantifier": "all models without local bound and dominance, all widths, all primal bounds, all time limits", "why_tests_cant": "the refusal depends on which nodes the table holds at the time, for every order of expansion", "anchors": ["src/dd.hpp:DD::merge", "src/dd.cpp:Relaxed::mergeLayer", "src/search.cpp:BAndB::search"]}
{"id": "C102", "title": "Bounding the middle mark loses no shortest ruler", "statement": "The generator of gruler_mid keeps the first half of the marks below half of the bound. If the table of known lengths holds lower bounds, then whichever ruler fits, a ruler that is no longer has all its marks shown as long as it beats the primal bound (the shortest ruler or its mirror image), and every relaxed diagram bounds from below every ruler shorter than the primal bound, shown or not.", "quantifier": "all n >= 2, L, tables of lower bounds, widths, primal bounds", "why_tests_cant": "the generator hides about half of all rulers; that the other half always suffices is a symmetry argument over all rulers", "anchors": ["examples/gruler_mid.cpp:main"]}
{"id": "C103", "title": "Search of gruler_mid", "statement": "Every vector reported is a ruler with n marks whose length is the reported value; the search ends; it ends with a shortest ruler, or with nothing if that is longer than L+1.", "quantifier": "all n >= 2, L, tables of lower bounds, widths, time limits", "why_tests_cant": "labels depend on the run so far and hide most solutions", "anchors": ["examples/gruler_mid.cpp:main", "src/search.cpp:BAndB::search"]}
{"id": "C104", "title": "Starting at the smallest unused distance loses no ruler", "statement": "gruler_midlb starts the labels at the last mark plus the smallest unused distance and tests legality in the generator. Its label sequences, limits of the bound aside, are exactly the rulers with n marks of length at most L+1; merging, which takes the minimum of the smallest unused distances, keeps every completion of either state; every relaxed diagram bounds from below every ruler shorter than the primal bound.", "quantifier": "all n >= 2, L, states, tables of lower bounds, widths, primal bounds", "why_tests_cant": "in merged states the smallest unused distance is no longer the smallest unused one; whether the limit still loses nothing depends on all completions", "anchors": ["examples/gruler_midlb.cpp:main"]}
{"id": "C105", "title": "Search of gruler_midlb", "statement": "Every vector reported is a ruler with n marks whose length is the reported value; the search ends; it ends with a shortest ruler, or with nothing if that is longer than L+1.", "quantifier": "all n >= 2, L, tables of lower bounds, widths, time limits", "why_tests_cant": "labels depend on the run so far and hide most solutions", "anchors": ["examples/gruler_midlb.cpp:main", "src/search.cpp:BAndB::search"]}
{"id": "C106", "title": "State sets, equality and hash of gruler_mid and gruler_midlb", "statement": "The set operations compute the sets of marks and distances; states that compare equal can be completed in the same ways, have the same smallest unused distance and the same hash.", "quantifier": "all reachable states and labels, merged or not", "why_tests_cant": "depends on bit positions and on which states share a hash", "anchors": ["examples/gruler_mid.cpp:SGRuler", "examples/gruler_midlb.cpp:SGRuler", "src/util.hpp:NatSet"]}
{"id": "C107", "title": "How far relaxed layers of the examples exceed the width", "statement": "Wherever a relaxed diagram is started in the search of an example, a layer has at most max(width, n) nodes, where n is the number of cities in tsp, the number of positions up to the length bound in gruler, the number of vertices coloured so far plus one in coloringtoy, and 1 in misp4 and misp5, although the merge functions refuse states with different last city, mark or number of colours.", "quantifier": "every instance, start state, primal bound, width and layer", "why_tests_cant": "all instances and widths; a test sees the layers of one diagram", "anchors": ["src/dd.cpp:Relaxed::mergeLayer", "src/dd.cpp:Relaxed::mergeOne", "examples/tsp.cpp:main", "examples/gruler.cpp:main", "examples/coloringtoy.cpp:main", "examples/misp5.cpp:main", "examples/misp4.cpp:main"]}
{"id": "C108", "title": "The float test in the merge of tsptoy", "statement": "In tsptoy.cpp two states with the same city and hops merge exactly if they share more than seven tenths of the cities visited: the float quotient compared with the double constant .7 agrees with exact arithmetic, with a share of exactly seven tenths refused.", "quantifier": "all numbers of hops up to 5592405 and all shares", "why_tests_cant": "rounding errors show at single quotients; the shares that round wrongly have millions of hops", "anchors": ["examples/tsptoy.cpp:main"]}
{"id": "C109", "title": "State equality that ignores part of a state", "statement": "If a user's std::equal_to compares only part of the state, std::hash depends only on that part, and the user's functions read and write that part without looking at the rest, then the search gives the answer, the solutions and the sequence of nodes that it gives on the compared parts alone under true equality. In particular the field lb of the states of tsp_test2 and tsp_test3, which their equality ignores, has no effect.", "quantifier": "all state types, models, hash functions, numbers of buckets, widths, limits and runs", "why_tests_cant": "which of two equal states a node keeps depends on the order of the whole run; a test sees one run of one state type", "anchors": ["src/lighthash.hpp:LHashtable::getLoc", "src/dd.hpp:DD::makeNode", "examples/tsp_test2.cpp:equal_to<TSP>", "examples/tsp_test3.cpp:equal_to<TSP>"]}
{"id": "C110", "title": "Dual bounds of gruler under its own state equality", "statement": "In gruler.cpp the bound of a relaxed diagram below a ruler's first marks is never above the length of a ruler that completes them, with nodes looked up by the program's own std::equal_to and std::hash, which disagree on the distances.", "quantifier": "all instances, first marks and widths", "why_tests_cant": "a wrong bound needs two merged states with equal marks, different distances and colliding hashes; small rulers have none", "anchors": ["examples/gruler.cpp:equal_to<SGRuler>", "examples/gruler.cpp:hash<SGRuler>", "src/lighthash.hpp:LHashtable::getLoc"]}
{"id": "C111", "title": "An equality that confuses merged states costs nothing when nothing is merged", "statement": "If the std::equal_to and std::hash supplied by the user tell apart all states that sequences of decisions reach, and the width is at least the size of every layer, then a search that is not stopped ends with the optimum, whatever that equality does on merged states and whatever the merge function is.", "quantifier": "all models, equalities, merge functions, widths no layer exceeds, time limits", "why_tests_cant": "the merge function and the equality are arbitrary", "anchors": ["src/search.cpp:BAndB::search", "src/dd.cpp:Relaxed::compute", "src/lighthash.hpp:LHashtable::getLoc"]}
{"id": "C112", "title": "The ruler programs over their own tables", "statement": "With nodes looked up by the programs' own std::equal_to and std::hash, gruler, gruler_mid and gruler_midlb only report rulers with n marks, each with its true length; the search always ends; and if no layer exceeds the width it ends with a shortest ruler, or with nothing if that is longer than L+1.", "quantifier": "all n >= 2, L, widths, time limits; tables of lower bounds for the last clause", "why_tests_cant": "the equality ignores the distances, so merged states are mixed up in ways that depend on collisions of hashes", "anchors": ["examples/gruler.cpp:main", "examples/gruler_mid.cpp:main", "examples/gruler_midlb.cpp:main", "src/search.cpp:BAndB::search"]}
{"id": "C113", "title": "The search of the knapsack example", "statement": "Everything knapsack.cpp reports is a packing within the capacity with its profit; its search ends at every width; and it ends with the best packing.", "quantifier": "all instances with non-negative weights and profits, all widths and time limits", "why_tests_cant": "whether the optimum survives depends on the width and on collisions between merged states", "anchors": ["examples/knapsack.cpp:main", "src/search.cpp:BAndB::search"]}
{"id": "C114", "title": "The search and the checker of the second knapsack example", "statement": "Everything knapsack2.cpp reports is a packing with its profit, for which its checker prints that profit and a capacity left that is not negative; its search ends; and it ends with the best profit.", "quantifier": "all instances with non-negative weights and profits, all widths, any rounding of the local bound for the first two clauses", "why_tests_cant": "the answer depends on rounding, on dominance across layers and on the width", "anchors": ["examples/knapsack2.cpp:main", "src/search.cpp:BAndB::search"]}
{"id": "C115", "title": "The knapsack example reads its file", "statement": "From a file with the number of items, the capacity, and profit and weight per item, readFile of knapsack.cpp gets exactly these numbers, whatever white space separates them and whatever follows; so with a width above the capacity the program ends with a best packing of the items in the file.", "quantifier": "all instances with int values, all layouts of white space, any text after the items", "why_tests_cant": "layouts are unbounded and the end-of-file test in the loop depends on the last characters", "anchors": ["examples/knapsack.cpp:readFile"]}
{"id": "C116", "title": "The second knapsack example reads its file", "statement": "readFile of knapsack2.cpp reads such a file and stays inside its array of items.", "quantifier": "all instances with int values, all layouts of white space, any text after the items", "why_tests_cant": "a write one past the array usually goes unnoticed", "anchors": ["examples/knapsack2.cpp:readFile"]}
{"id": "C117", "title": "The second knapsack example sorts its items", "statement": "After readFile the items are those of the file in order of falling profit per weight, which the local bound relies on.", "quantifier": "all lists of items with int profits and weights", "why_tests_cant": "the comparator divides in double; ties and near ties decide the order", "anchors": ["examples/knapsack2.cpp:readFile", "src/msort.hpp:mergeSort"]}
{"id": "C118", "title": "The independent-set examples read their DIMACS file", "statement": "From a graph file whose lines are comments, a problem line with the numbers of vertices and edges, and edges, readFile gets the numbers of the last problem line and all edges in order, with vertices counted from 0, whatever the white space and whether or not the last line ends with a newline; so misp5.cpp solves the problem in the file.", "quantifier": "all such files with int values, all layouts of white space", "why_tests_cant": "layouts are unbounded, and the end-of-file test depends on the last characters", "anchors": ["examples/misp5.cpp:readFile", "examples/misp.cpp:readFile", "examples/misp2.cpp:readFile"]}
{"id": "C119", "title": "A width with which misp5.cpp is exact", "statement": "On a graph of n vertices with non-negative weights and with a width of at least 2^(n/2), the search of misp5.cpp, unless interrupted, ends with a heaviest independent set.", "quantifier": "all graphs, all weights from 0 on, all widths from 2^(n/2) on", "why_tests_cant": "the number of states per layer must be bounded for every graph", "anchors": ["examples/misp5.cpp:main", "src/search.cpp:BAndB::search"]}
{"id": "C120", "title": "From the list of edges to sets of neighbours", "statement": "convert builds for each vertex the set of exactly its neighbours and vertices the set of all vertices; an end point out of range makes convert reach outside its array.", "quantifier": "all lists of edges, up to 2^20 vertices", "why_tests_cant": "the sets grow by doubling with 16-bit counters; edge lists are unbounded", "anchors": ["examples/misp5.cpp:Instance::convert", "examples/misp5.cpp:Instance::vertices", "src/util.hpp:GNSet::insert", "src/util.hpp:setFrom"]}
{"id": "C121", "title": "The colouring examples read their file", "statement": "From a file that says N = n, E = {(u,v), ...} and K = k in any order, with other text without the letters N, E, K around, readPyFile gets n, k or no bound, and the set of the edges; and the graphs that come with the project, in DIMACS format, can be read.", "quantifier": "all such files with int values, all layouts of white space", "why_tests_cant": "layouts are unbounded; reading on after a failed extraction shows up as garbage or not at all", "anchors": ["examples/coloring.cpp:readPyFile", "examples/coloring2.cpp:readPyFile", "examples/coloring3.cpp:readPyFile"]}
{"id": "C122", "title": "coloring3 keeps the earlier neighbours", "statement": "After convert the set of each vertex holds exactly its neighbours that come before it, and nothing is written outside the sets.", "quantifier": "all graphs of up to 2^16 vertices with edges in range", "why_tests_cant": "a write behind an array of one word usually goes unnoticed in a release build", "anchors": ["examples/coloring3.cpp:Instance::convert", "src/util.hpp:GNSet::removeAbove"]}
{"id": "C123", "title": "The colours coloring2 and coloring3 try", "statement": "At every state the generator returns the colours from 1 to the least of the bound of the file, the primal bound and one more than the colours in use, without those of coloured neighbours, and writes nothing outside its set.", "quantifier": "all graphs, states before the sink, bounds below 2^16, primal bounds from 0 on", "why_tests_cant": "only one value of the bound is wrong, in a release build silently", "anchors": ["examples/coloring2.cpp:lgf", "examples/coloring3.cpp:lgf", "src/util.hpp:GNSet::removeAbove"]}
{"id": "C124", "title": "A width with which the colouring examples are exact", "statement": "On a graph of n vertices, with a bound in the file that is missing or not too low and a width of at least the number of partitions of n-1 things, the searches of coloring.cpp, coloring2.cpp and coloring3.cpp, unless interrupted, end with the chromatic number; together with C121 this holds from the file on.", "quantifier": "all graphs, all such bounds and widths", "why_tests_cant": "the number of states per layer must be bounded for every graph", "anchors": ["examples/coloring.cpp:main", "examples/coloring2.cpp:main", "examples/coloring3.cpp:main", "src/search.cpp:BAndB::search"]}
{"id": "C125", "title": "tsp.cpp, tsp_test2 and tsp_test3 read a full matrix", "statement": "From a file with one of the two layouts of header and the numbers of an n by n matrix, readFile gets n and the matrix, row by row, whatever the white space and whatever follows; every distance of the result was in the file, and a file that does not give them all ends the reading.", "quantifier": "all such files with int values and up to 46340 cities, all layouts of white space", "why_tests_cant": "layouts are unbounded; a distance nobody set looks like any other number", "anchors": ["examples/tsp.cpp:readFile", "examples/tsp_test2.cpp:readFile", "examples/tsp_test3.cpp:readFile", "src/util.hpp:Matrix"]}
{"id": "C126", "title": "tsp_test4 reads full matrices and lower triangles", "statement": "From a file with a header of labelled lines, readFile gets the full matrix, or the symmetric matrix of the lower triangle, that EDGE_WEIGHT_FORMAT announces; every distance of the result was in the file, and a file in another format ends the reading.", "quantifier": "all such files with int values and up to 46340 cities", "why_tests_cant": "layouts are unbounded; a distance nobody set looks like any other number", "anchors": ["examples/tsp_test4.cpp:readFile", "examples/tsp_test4.cpp:readLabel", "examples/tsp_test4.cpp:convertWF", "src/util.hpp:Matrix"]}
{"id": "C127", "title": "A width with which the TSP examples are exact", "statement": "With n cities and a width of at least (n-1) times the largest number in row n-2 of Pascal's triangle, no layer of an exact diagram of tsp.cpp, tsptw, tsp_test2, tsp_test3 and tsp_test4 is wider than the width, and their searches, unless interrupted, end with a shortest tour.", "quantifier": "all distance matrices, all widths from that number on", "why_tests_cant": "the number of states per layer must be bounded for every instance", "anchors": ["examples/tsp.cpp:main", "examples/tsptw.cpp:main", "examples/tsp_test2.cpp:main", "examples/tsp_test3.cpp:main", "examples/tsp_test4.cpp:main", "src/search.cpp:BAndB::search"]}
{"id": "C128", "title": "The TSP programs from text to tour", "statement": "On a file they can read, with distances that are not negative and n times the largest of them below the largest int, and with the width of C127, tsp.cpp, tsp_test2, tsp_test3 and tsp_test4 end, and unless interrupted they end with a shortest tour of the distances in the file.", "quantifier": "all such files, all widths from that of C127 on, all interruptions", "why_tests_cant": "joins the reader, the matrix, the model and the search for all inputs", "anchors": ["examples/tsp.cpp:main", "examples/tsp_test2.cpp:main", "examples/tsp_test3.cpp:main", "examples/tsp_test4.cpp:main", "src/search.cpp:BAndB::search"]}
{"id": "C129", "title": "Where siblings do not merge the search stays at its width", "statement": "In every search the width of the relaxed diagrams never shrinks. If two children of one state never merge (tsp.cpp, tsp_test4, gruler, gruler_mid, gruler_midlb), the cut set of a relaxed diagram never holds its own root: every subproblem lies strictly deeper than the one it is split from, and the width is the one given from the first diagram to the last.", "quantifier": "all models meeting the engine's conditions, all instances of those examples, all widths, all runs", "why_tests_cant": "an invariant of all runs; a test sees the widths of a few", "anchors": ["src/search.cpp:BAndB::search", "src/dd.cpp:Relaxed::computeCutSet", "src/dd.cpp:Relaxed::compute", "examples/tsp.cpp:main", "examples/tsp_test4.cpp:main", "examples/gruler.cpp:main", "examples/gruler_mid.cpp:main", "examples/gruler_midlb.cpp:main"]}
{"id": "C130", "title": "The search's report tells the truth", "statement": "Counting and printing do not change the search. The numbers of the final line add up: each queued node was taken out, removed as dominated or is still queued, D and Seen count the dropped nodes, and LIM? says whether the time limit ended the search. Each progress line shows a dual bound that no solution beyond the primal bound can beat, the dual column only moves towards the primal bound, and the gap says how far a better solution can be.", "quantifier": "all models meeting the engine's conditions, all widths, time limits, moments of printing and runs", "why_tests_cant": "the printed numbers depend on the clock and on the whole history of the queue; a test sees a few lines of a few runs and cannot compare them with all solutions", "anchors": ["src/search.cpp:BAndB::search", "src/heap.hpp:Heap::size"]}
{"id": "C131", "title": "A Bounds object can be used again", "statement": "A search calls every registered callback once for each solution it reports, in the order of registration, with the solution's labels and after storing its cost; at the end the object holds the answer. Searching again with the same object starts from the stored bound, only ever improves it, and leaves object and callbacks alone if the bound is optimal.", "quantifier": "all models meeting the engine's conditions, all callbacks, widths, time limits and sequences of searches", "why_tests_cant": "a callback that refers to a finished call may seem to work; whether a second search reports anything depends on the instance and the widths", "anchors": ["src/search.cpp:BAndB::search", "src/dd.hpp:Bounds", "src/dd.cpp:Bounds::attach"]}
{"id": "C132", "title": "The totals printed for each solution are right", "statement": "For every solution reported by tsp_test4 its callback prints the primal bound as the length it adds up itself, and the number of cities as the number of hops, without leaving the distance matrix or overflowing. For every colouring reported by coloring and coloring3 the printed histogram has one entry for each of the colours 1 to the value of the solution, in this order, with the number of vertices of that colour; none is 0 and they add up to the number of vertices.", "quantifier": "all graphs and distance matrices, widths, time limits, runs and reported solutions", "why_tests_cant": "the printed lines are not compared with anything; agreement on some instances says nothing about an unusual order of colours, an unused colour or a sum that overflows", "anchors": ["examples/tsp_test4.cpp:main", "examples/coloring.cpp:main", "examples/coloring3.cpp:main"]}
{"id": "C133", "title": "A wrong bound or merge never makes the search report a wrong solution", "statement": "If a model's states come in layers, then whatever its local bound computes, whatever a merged state stands for and whatever a dominating state is worth, every vector handed to the callbacks is a solution with the stored cost, the costs strictly improve, and the search ends. In particular exchanging the local bound of a correct program for any function keeps this true; so do the cells the TSP examples read without writing.", "quantifier": "all models with layered states, all local bounds, merges, dominance tests, widths, time limits and runs", "why_tests_cant": "the claim is about all wrong user functions; a test can try a few", "anchors": ["src/search.cpp:BAndB::search", "src/dd.cpp:Relaxed::compute", "src/dd.cpp:Restricted::compute", "examples/tsp_test4.cpp:main"]}
{"id": "C134", "title": "tsptw from the text of an instance to the tour, and its time windows", "statement": "On a text with comments (from # to the end of the line), the number of cities, the matrix row by row and the windows, tsptw stores exactly these; what it then reports are tours of that matrix with their lengths, the search ends, and with enough width and a harmless value at the root it ends with a shortest tour. Texts with too few numbers, or no file, make it store variables nobody set. The tours reported need not respect the time windows: the search does not depend on them at all, and a file is given on which the final tour misses a window although another tour keeps them all.", "quantifier": "all texts of the format with up to 46340 cities and integer distances, however they are written (sign, point, zeros); all widths, limits, runs", "why_tests_cant": "all layouts of all files and all runs; that an input part is never used is a statement about all pairs of files", "anchors": ["examples/tsptw.cpp:skip", "examples/tsptw.cpp:readFile", "examples/tsptw.cpp:main"]}
{"id": "C135", "title": "The graphviz file shows the diagram", "statement": "saveGraph on a compiled exact, relaxed or restricted diagram never decreases a null location, and writes every listed node on exactly one line, green exactly if the node is exact and with a box exactly if it is the sink, and every arc on exactly one line with its ends, cost and label; each arc comes after the line of its source and before that of its target.", "quantifier": "all models with layers and any bounds, merges and dominance (exact: all acyclic models), all widths, sources and primal values for which the compilation ends", "why_tests_cant": "the heap is searched by node over all slots, also those of nodes that have left it; that the right location is found and the order holds is a statement about all diagrams and all heap states", "anchors": ["src/dd.cpp:saveGraph", "src/heap.hpp:find", "src/dd.hpp:DD::printNode"]}
{"id": "C136", "title": "Costs in double behave as integers", "statement": "If every label costs at most C and every local bound is at most L in magnitude, layers are at most N deep, and C*(2N+3)+L+INT_MAX does not exceed 2^53, then the search that rounds every double addition takes the same steps, reports the same solutions and values and gives the same answer as the search over the integers, however the rounding is done above 2^53; so every solution it reports has the printed cost. Beyond that limit the printed value need not be the incumbent's cost, and the worse of two solutions can be returned.", "quantifier": "all valid models with integer costs, all widths, time limits and numbers of iterations, all rounding functions exact up to 2^53", "why_tests_cant": "tests add small numbers; that no intermediate sum of any diagram (down, up, their sum with a local bound, the sentinels) leaves the exact range is a statement about all reachable states", "anchors": ["src/dd.cpp:Exact::compute", "src/dd.cpp:Restricted::compute", "src/dd.cpp:Relaxed::compute", "src/dd.cpp:computeBestBackward", "src/search.cpp:BAndB::search", "src/node.hpp:ANode", "src/dd.hpp:cost"]}
{"id": "C137", "title": "Reported solutions and values with any machine addition", "statement": "Whatever the machine's addition of doubles does (rounding in any direction, at any precision, not associative), whatever the costs and local bounds: every vector handed to the solution callbacks is a solution of the user's model, the value stored with it is what the machine gets when it adds the costs of its labels one after the other from the left, the values strictly improve, and the search ends. If no addition along a path is off by more than E, a reported value is off by at most E per decision. Optimality among these sums is not kept: with doubles the answer of a finished search can depend on the width.", "quantifier": "all addition functions, all models with layers whose left-to-right sums stay inside the INT_MAX sentinels, all costs (fractional too), merges, dominance and local bounds, all widths, time limits and initial bounds", "why_tests_cant": "the value is carried through nodes that are merged, re-pooled and added to again in other diagrams; that it is always the left-to-right sum of exactly the labels reported is an invariant of every run, and tests with integers never see a sum that depends on order", "anchors": ["src/dd.cpp:Restricted::compute", "src/dd.cpp:Relaxed::compute", "src/dd.cpp:tighten", "src/dd.cpp:computeBest", "src/dd.cpp:computeBestBackward", "src/search.cpp:BAndB::search"]}
{"id": "C138", "title": "Answers with rounded sums are nearly optimal", "statement": "Let the machine's addition keep order and be off by at most E, let layers be at most N deep, and let the local bound be too pessimistic by at most D. When the search runs to its end, no solution's exact cost beats the value it prints by more than (N+2)*E + D, and no solution's exact cost beats the exact cost of the solution it reports by more than (2N+3)*E + D. In doubles, with sums below 2^(k+53) units, E is half of 2^k units.", "quantifier": "all additions that keep order and are E-close up to a size R, all layered models with completions of size C and 2C+(N+2)E+D <= R, all widths, time limits and initial bounds", "why_tests_cant": "the bounds compared with the incumbent are sums taken in a different order (backward sweeps, merged nodes, re-pooled nodes) from the sums of solutions; how the errors add up over prunings in many diagrams is a statement about every run", "anchors": ["src/dd.cpp:Relaxed::compute", "src/dd.cpp:Restricted::compute", "src/dd.cpp:computeBestBackward", "src/search.cpp:BAndB::search", "examples/misp5.cpp:local"]}
{"id": "C139", "title": "GNSet objects are values", "statement": "A program that declares, copies, moves, assigns, grows, combines and destroys GNSet variables never reads or writes freed or foreign memory, and each variable always holds exactly the members set theory gives: a copy has the members of its source and later changes to one are not seen in the other; a moved-to set has what the source had; growing in insert or unionWith loses nothing. No two variables share an array, no array is deleted twice, and when all variables are gone everything allocated has been freed. Converting a NatSet keeps its members and its largest value. Of a moved-from set only destruction and move assignment are supported.", "quantifier": "all programs (finite sequences of constructor, assignment, member and destructor calls over any number of variables), all values", "why_tests_cant": "ownership faults show up only for particular interleavings of copies, moves, growth and destruction; tests run a few sequences and do not see leaks or aliasing", "anchors": ["src/util.hpp:GNSet(const GNSet&)", "src/util.hpp:GNSet(GNSet&&)", "src/util.hpp:GNSet::operator=", "src/util.hpp:GNSet::insert", "src/util.hpp:GNSet::unionWith", "src/util.hpp:~GNSet", "src/util.hpp:GNSet(const NatSet<nbw>&)"]}
{"id": "C140", "title": "The independent-set program on its stored words", "statement": "Running misp5 on the GNSet words its states hold, with its own std::equal_to and std::hash in the 200191-bucket node tables, never touches memory outside an array or a null pointer, and reports exactly what the search over abstract vertex sets reports: the same solutions in the same order, the same bound and the same end. Equal states always have equal hashes although the sink has one word and the other states may have many. The limit of 32768 vertices is sharp: one more and the bound of the root indexes the weights with -32768.", "quantifier": "every graph of at most 32768 vertices with edges inside the arrays, every width, time limit and number of iterations", "why_tests_cant": "a test sees a few graphs, usually below 64 vertices where every set is one word; the claim is about all word counts and all states a run can meet", "anchors": ["examples/misp5.cpp:3-22", "examples/misp5.cpp:126-178", "src/util.hpp:420-748", "src/lighthash.hpp:87-100"]}
{"id": "C141", "title": "The TSP program on its stored words", "statement": "Running tsp.cpp on the GNSet words its states hold, with its own std::equal_to and std::hash in the 200191-bucket node tables, never touches memory outside an array or a null pointer. Although two equal states may be kept as two nodes, everything it reports is a tour with its true length, its search ends, and with a width no layer exceeds it ends with a shortest tour.", "quantifier": "every distance matrix of 2 to 32768 cities whose sums fit an int, every width, time limit and number of iterations; the optimum for widths of at least the largest layer", "why_tests_cant": "a test sees a few matrices, usually below 64 cities where every set is one word; the claim is about all word counts and all states a run can meet", "anchors": ["examples/tsp.cpp:3-30", "examples/tsp.cpp:49", "examples/tsp.cpp:106-150", "src/util.hpp:420-748", "src/lighthash.hpp:87-100"]}
{"id": "C142", "title": "Equal TSP states have equal hashes", "statement": "Two states of one run of tsp.cpp that std::equal_to calls equal have the same std::hash, so that the node table finds the one from the other.", "quantifier": "all instances and all pairs of states a run can meet", "why_tests_cant": "the hash depends on the number of stored words, which depends on the history of a state and differs only from 65 cities on and after merges", "anchors": ["examples/tsp.cpp:12-24", "src/util.hpp:597-608", "src/util.hpp:697-712", "src/util.hpp:739-746", "src/lighthash.hpp:87-100"]}
{"id": "C143", "title": "The node tables behind diagrams and search", "statement": "During every compilation and every search the node table, with its buckets, chains and stamps, gives for a state the one node made for that state and bucket since the last reset, and nothing else; a node is made only where the lookup fails, its state never changes, and reset visits every node of the diagram exactly once. This holds for an arbitrary hash and however many diagrams the object compiled before, up to the 2^32 values of the stamp.", "quantifier": "every model, state type, hash function and equivalence, every kind of diagram, width and primal bound, every earlier history of the object", "why_tests_cant": "collisions, stale chains and stamps depend on the whole history of the object", "anchors": ["src/lighthash.hpp:49-165", "src/dd.hpp:349-376", "src/dd.hpp:440-462", "src/dd.hpp:586-619"]}
{"id": "C144", "title": "The independent-set program without the last vertex on its stored words", "statement": "Running misp4 on the GNSet words its states hold, with its own std::equal_to and std::hash in the 200191-bucket node tables, never touches memory outside an array or a null pointer and reports exactly what the search over abstract vertex sets reports. Every reported solution is an independent set of the reported weight, the search ends, and with a width of at least 2^(n/2) for n vertices it ends with a heaviest independent set.", "quantifier": "every graph of at most 32768 vertices with edges inside the arrays, non-negative weights, every width, time limit and number of iterations", "why_tests_cant": "a test sees a few graphs, usually below 64 vertices where every set is one word; the claim is about all word counts and all states a run can meet", "anchors": ["examples/misp4.cpp:3-21", "examples/misp4.cpp:122-159", "src/util.hpp:420-748", "src/lighthash.hpp:87-100"]}
{"id": "C145", "title": "Labels of a generator that returns a range", "statement": "A label generator may return a Range; the engine tries exactly the values of that range as labels, once each, in the order of the range, so that the generator decides which branch comes first.", "quantifier": "all ranges, forward and backward, whose values lie in 0..32767", "why_tests_cant": "the conversion to a set hides the order and its capacity arithmetic depends on the bounds and the direction; a run of an example shows one range per state", "anchors": ["src/dd.hpp:DD::getLabels", "src/util.hpp:GNSet::GNSet(const Range&)", "examples/knapsack.cpp:main"]}
{"id": "C146", "title": "The second knapsack program in doubles is at most 1 below the best", "statement": "The local bound of knapsack2 is computed in double and can be too small (C71), so the program can miss the best packing. It misses it by at most 1: run with a width above the capacity to its end, the final primal bound is at least the profit of every packing minus 1, and an incumbent found is a packing of that profit. From the file on, this holds for positive weights below 2^26 and profits below 2^26, where the program's sort by double ratios is a sort by ratios.", "quantifier": "every instance sorted by falling profit per weight with weights up to 2^31 and profits below 2^31, every width above the capacity, every run that is not stopped by the time limit", "why_tests_cant": "the loss depends on how two roundings of a quotient and a product fall for the break item of every node; instances where it shows at all are rare", "anchors": ["examples/knapsack2.cpp:117-129", "examples/knapsack2.cpp:41-53", "examples/knapsack2.cpp:main", "src/search.cpp:31-155"]}
{"id": "C147", "title": "The third independent-set program on its stored words", "statement": "Running misp3 on the GNSet words its states hold, with its own std::equal_to and std::hash in the 200191-bucket node tables, never touches memory outside an array or a null pointer, and reports exactly what the search over abstract vertex sets reports: the same solutions in the same order, the same bound and the same end. The neighbour sets that it builds by filtering hold exactly a vertex and what an edge joins to it. A width of 2^(n/2) for n vertices is enough for it to end with a heaviest independent set. The limit of 32768 vertices is sharp.", "quantifier": "every graph of at most 32768 vertices with edges inside the arrays, every width, time limit and number of iterations", "why_tests_cant": "a test sees a few graphs, usually below 64 vertices where every set is one word; the claim is about all word counts and all states a run can meet", "anchors": ["examples/misp3.cpp:13-40", "examples/misp3.cpp:117-195", "src/util.hpp:420-770", "src/util.hpp:902-908", "src/lighthash.hpp:87-100"]}
{"id": "C148", "title": "The second independent-set program on its stored words", "statement": "Running misp2 on the GNSet words its states hold, with its own std::equal_to and std::hash in the 200191-bucket node tables, never touches memory outside an array or a null pointer, and reports exactly what the search over abstract vertex sets reports: the same solutions in the same order, the same bound and the same end. The program rebuilds its sets by filtering, so that the number of words of a state changes along a run; still equal states always have equal hashes, because that number depends only on the largest vertex left. A width of 2^((n+1)/2) for n vertices is enough for it to end with a heaviest independent set.", "quantifier": "every graph of 1 to 32768 vertices with edges inside the arrays, every width, time limit and number of iterations", "why_tests_cant": "the number of stored words depends on the history of a state and differs only from 65 vertices on; a test sees few histories, the claim is about all states a run can meet", "anchors": ["examples/misp2.cpp:13-40", "examples/misp2.cpp:117-196", "src/util.hpp:420-770", "src/lighthash.hpp:87-100"]}
{"id": "C149", "title": "The merge function need not treat final states", "statement": "If merging two states that are not final never gives a final state, then what the user's merge function returns when one of its arguments is final has no effect: two models that agree on merges of non-final states are compiled to the same relaxed diagram from every node, and the whole search runs identically. Without that proviso it is false: a merged node that is final is put back in front of the layer and offered for merging again.", "quantifier": "every model, every pair of merge functions agreeing on non-final states, every root (final or not), width, primal bound, time limit and number of iterations", "why_tests_cant": "one would have to try every possible answer of the merge function on every final state in every run", "anchors": ["src/dd.hpp:517-539", "src/dd.cpp:483-595", "src/dd.cpp:613-741"]}
{"id": "C150", "title": "The first independent-set program on its stored words", "statement": "Running misp on the GNSet words its states hold, with its own std::equal_to and std::hash in the 200191-bucket node tables, never touches memory outside an array or a null pointer (the cost array on every label offered), and reports exactly what the search over abstract vertex sets reports: the same solutions in the same order, the same bound and the same end. An emptied set keeps the words it had, so two empty sets may be stored in different sizes, and a merge with one would give an oversized set; the engine never merges a final state, so equal states that a run can meet always have equal hashes. A width of 2^n for n vertices is enough for it to end with a heaviest independent set.", "quantifier": "every graph of 1 to 32767 vertices with edges inside the arrays, every width, time limit and number of iterations", "why_tests_cant": "stored sizes depend on the history of a state and differ only from 65 vertices on; the claim is about every state every run can meet", "anchors": ["examples/misp.cpp:13-40", "examples/misp.cpp:117-196", "src/util.hpp:420-770", "src/lighthash.hpp:87-100", "src/dd.hpp:517-539"]}
{"id": "C151", "title": "The helpers over std::set and std::vector", "statement": "For sets of int, operator|, operator&, remove and filter return sets with exactly the elements their names say, so the usual laws of sets hold as equalities of the containers; min and max return the smallest and largest element, and the largest and smallest int for an empty set; member says whether some element satisfies the predicate, and so does a foldl of ||; foldl applies the operation to the elements in the order of iteration. sum in int is the sum and is defined exactly when every partial sum in the order of iteration fits; that the total fits is not enough.", "quantifier": "every set or vector of int, every predicate and term", "why_tests_cant": "the laws hold for all sets; overflow of a partial sum depends on the order of iteration", "anchors": ["src/util.hpp:18-50", "src/util.hpp:772-778", "src/util.hpp:799-805", "src/util.hpp:874-900"]}
{"id": "C152", "title": "Hashes and printing of sets and vectors", "statement": "Two vectors of int that differ in one place have different hashes; differing in two places or in length they need not. Sets with the same elements have the same hash, and the hash of a set of at least 22 elements depends on its 22 largest alone; 21 would not do. A printed set is its elements in order with a comma between two, in braces; different sets, and different vectors, are printed differently, and every int is written as a numeral that the readers of the examples take for the same int.", "quantifier": "every vector and set of int", "why_tests_cant": "injectivity of printing and the reach of the hash are statements over all pairs of containers", "anchors": ["src/util.hpp:829-860"]}
{"id": "C153", "title": "tsp_test4, tsptw and tsp_test2 on their stored words", "statement": "Running these programs on the GNSet words their states hold, with their own std::equal_to and std::hash in the 200191-bucket node tables, no set operation touches memory outside an array or a null pointer: C.size() is the number of cities, and the sets the local bounds iterate hold cities only, each once. Everything they report is a tour with its true length, shorter than the one before, whatever the local bounds give where they read what was never written; their searches end; and with a width no layer exceeds they end with a shortest tour. Equal states of one run have equal hashes. (The last holds up to 64 cities and fails from 65 on; the optimum needs what is read unwritten to be at most the length of every tour.)", "quantifier": "every matrix of non-negative distances of 1 to 32768 cities whose sums fit an int, every width, time limit and number of iterations; the optimum for widths of at least the largest layer", "why_tests_cant": "a test sees a few matrices, usually below 64 cities where every set is one word; the claim is about all word counts and all states a run can meet", "anchors": ["examples/tsp_test4.cpp:5-26", "examples/tsp_test4.cpp:150-252", "examples/tsptw.cpp:4-25", "examples/tsptw.cpp:89-150", "examples/tsp_test2.cpp:5-27", "examples/tsp_test2.cpp:101-170", "src/util.hpp:420-748", "src/lighthash.hpp:87-100"]}
{"id": "C154", "title": "tsp_test3 on its stored words", "statement": "Running tsp_test3 on the two GNSets each state holds, with its own std::equal_to and std::hash in the 200191-bucket node tables, no set operation touches memory outside an array or a null pointer: S.size() is the number of cities in S, and the set the local bound iterates holds cities only, each once. Everything it reports is a tour with its true length, shorter than the one before, whatever the local bound gives where it reads what was never written; its search ends; and with a width no layer exceeds it ends with a shortest tour. Equal states of one run have equal hashes. (The last holds up to 64 cities and fails from 65 on, where merging the same two states in either order gives equal states in different buckets; the optimum needs what is read unwritten to be at most the length of every tour.)", "quantifier": "every matrix of non-negative distances of 1 to 32768 cities whose sums fit an int, every width, time limit and number of iterations; the optimum for widths of at least the largest layer", "why_tests_cant": "a test sees a few matrices, usually below 64 cities where every set is one word; the claim is about all word counts and all states a run can meet", "anchors": ["examples/tsp_test3.cpp:5-29", "examples/tsp_test3.cpp:139-166", "examples/tsp_test3.cpp:175-235", "src/util.hpp:420-748", "src/lighthash.hpp:87-100"]}
{"id": "C155", "title": "Copying, assigning and moving Vecs", "statement": "Vecs of one pool never show each other's changes: after any sequence of constructions, copies, assignments, move constructions and move assignments among them, mixed with push_back, pop_back, remove, clear and reads, each behaves as its own list. A vector that was moved from is empty and can be used again. (False for move construction, where the source keeps its elements and shares the array: a push_back on it overwrites an element of the new vector; and for self move assignment, which loses the elements. Holds when the source of a move construction is not used until it is given a value by a construction or a move assignment.)", "quantifier": "every sequence of calls on any number of vectors of one pool, any element type and size type", "why_tests_cant": "whether two vectors share storage depends on the whole history of growths, copies and moves; a test sees a few histories", "anchors": ["src/vec.hpp:25-113", "src/vec.hpp:114-142", "src/handle.hpp:55-60"]}
