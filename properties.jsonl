{"id": "C01", "title": "Binary heap: pop always yields a least element and nothing is lost", "statement": "After any sequence of heap operations (push, pop, remove-by-update, bulk append, clear, re-initialise after arbitrary priority changes) the element returned by pop is one that no other contained element precedes under the ordering predicate, and the collection of contained elements is exactly those pushed and not yet popped.", "quantifier": "every strict weak ordering, every element type, every finite history of operations", "why_tests_cant": "A test fixes one history and one ordering; the sift-up/sift-down invariant must hold for all tree shapes and tie patterns.", "anchors": ["structs/binheap.hpp: BinHeap::push, pop, front, update, pushupdate, append, reinit, clear, pushup, pushdown, pull"]}
{"id": "C02", "title": "Binary heap: the index reported to an element is its real position", "statement": "Whenever an element is contained in the heap, the last index passed to setind for it is the position at which data() shows it; after pop the index is -1; hence update(index) after changing the priority of that element restores the ordering.", "quantifier": "every history in which an element is contained at most once", "why_tests_cant": "The index is only wrong on particular swap sequences; searches depend on it for every reopen.", "anchors": ["structs/binheap.hpp: BinHeap::swap, push, pop, update, HeapElm setind"]}
{"id": "C03", "title": "Closed list: find returns a stored node with an equal state iff there is one", "statement": "After any sequence of add, remove and clear, find(state) returns a node whose key equals the state if one is stored and null otherwise, whatever the hash function and however often the table was resized.", "quantifier": "every hash function consistent with equality, every history, every table size >= 1", "why_tests_cant": "Collisions and resizes depend on hash values that tests do not control.", "anchors": ["search/closedlist.hpp: ClosedList::add, find, remove, clear, resize"]}
{"id": "C04", "title": "Closed list iteration visits every stored node exactly once", "statement": "A begin()..end() walk of the closed list yields each stored node exactly once.", "quantifier": "every history, every bin distribution including empty leading/trailing bins", "why_tests_cant": "Depends on which bins are empty, which is controlled by hash values.", "anchors": ["search/closedlist.hpp: ClosedList::iterator, begin, end"]}
{"id": "C05", "title": "Hash table: rm really removes the element", "statement": "If rm(k) reports success then the element it was asked to remove is no longer stored: one stored element with key k disappears and all others remain, and the reported size matches.", "quantifier": "every history of add/rm on the table", "why_tests_cant": "Only fails for elements that are not first in their bucket, so it depends on collisions.", "anchors": ["structs/htable.hpp: Htable::rm"]}
{"id": "C06", "title": "Hash table: find is exact under add and growth", "statement": "Using add, find, clear (no removal) find(k) returns a stored element with key k iff one was added since the last clear, across any number of growths.", "quantifier": "every hash function, every history of add/clear", "why_tests_cant": "Growth rehashes every chain; a lost element shows only for particular collision patterns.", "anchors": ["structs/htable.hpp: Htable::add, find, grow, foreach, clear"]}
{"id": "C07", "title": "Integer priority queue pops in priority order", "statement": "After any history of push, pop and rm, pop returns a contained element of least priority and removes only that element; mem tells exactly whether an element is contained.", "quantifier": "every history of operations and every assignment of non-negative priorities", "why_tests_cant": "The minimum cursor is only wrong for particular interleavings of rm, pop and push.", "anchors": ["structs/intpq.hpp: IntPq/Intpq push, pop, rm, mem, empty"]}
{"id": "C08", "title": "Disjoint sets: two elements share a representative iff they were joined", "statement": "After any sequence of join and find calls, find(a)=find(b) iff a and b are connected by the joins made so far; find never changes the partition.", "quantifier": "every finite history of join/find on any number of elements", "why_tests_cant": "Path compression and union by rank interact over histories; the rank field is in fact mis-maintained, so only a proof shows it is harmless.", "anchors": ["structs/djset.hpp: Djset::find, Djset::join"]}
{"id": "C09", "title": "Integer open list returns the best bucket entry", "statement": "With integer costs, pop returns a node whose priority is least and, among those, whose tie-break priority is greatest; push, pop and update (pre_update/post_update) preserve the set of open nodes.", "quantifier": "every history of push/pop/update", "why_tests_cant": "Cursor fields min/max of the two-level bucket queue are only wrong for particular histories.", "anchors": ["search/search.hpp: OpenList<Ops,Node,IntOpenCost>, Maxq"]}
{"id": "C10", "title": "Clearing an open list makes membership false", "statement": "After clear() every node is reported as not being a member of the open list.", "quantifier": "every open list state", "why_tests_cant": "A stale index is visible only if a cleared node is asked about later (beam search does exactly that).", "anchors": ["search/search.hpp: OpenList::clear, OpenList::mem, OpenList::post_update", "structs/binheap.hpp: BinHeap::clear"]}
{"id": "C11", "title": "Pool never hands out an object that is still live", "statement": "Two objects obtained from the pool and not yet returned are never the same storage, for any interleaving of get/construct and put/destruct of live objects.", "quantifier": "every history in which put is called only on live objects", "why_tests_cant": "Free-list aliasing appears only in particular interleavings.", "anchors": ["utils/pool.hpp: Pool::get, put, construct, destruct"]}
{"id": "C12", "title": "K-d tree nearest neighbour is exact", "statement": "nearest(pt) returns a stored point whose squared distance to pt is minimal over all stored points (and nothing iff the tree is empty).", "quantifier": "every dimension, every insertion order, every query point over an ordered field", "why_tests_cant": "Branch pruning is only wrong for particular geometry.", "anchors": ["structs/kdtree.hpp: Kdtree::nearest, Kdtree::insert, Kdtree::sqdist"]}
{"id": "C13", "title": "K-d tree stores exactly what was inserted", "statement": "size() is the number of insertions and iteration yields every inserted (point,data) exactly once.", "quantifier": "every insertion sequence", "why_tests_cant": "Depends on tree shape.", "anchors": ["structs/kdtree.hpp: Kdtree::insert, Kdtree::size, Kdtree::iterator, Kdtree::depth"]}
{"id": "C14", "title": "STN: a rejected constraint leaves the network untouched and undo reverts the last addition", "statement": "If adding a constraint fails, every bound and arc of the network is exactly as before; calling undo after a successful add restores exactly the bounds and arcs before that add, for nested adds/undos.", "quantifier": "every network state and constraint", "why_tests_cant": "State is mutated by recursive propagation in data dependent order.", "anchors": ["structs/stn.hpp, structs/stn.cc: Stn::add, undo, propagate, proplower, propupper"]}
{"id": "C15", "title": "STN: acceptance means a schedule exists", "statement": "If every added constraint was accepted then the lower bounds reported form an assignment of representable times satisfying all constraints, and so do the upper bounds.", "quantifier": "every sequence of constraints", "why_tests_cant": "Consistency is a global property of arbitrary constraint graphs.", "anchors": ["structs/stn.cc: Stn::add, proplower, propupper"]}
{"id": "C16", "title": "STN: rejection means no schedule exists", "statement": "If add(c) is rejected then no assignment of representable times with the origin at 0 satisfies the accepted constraints together with c.", "quantifier": "every network, constraint and candidate assignment", "why_tests_cant": "Quantifies over all assignments.", "anchors": ["structs/stn.cc: Stn::add, proplower, propupper"]}
{"id": "C17", "title": "STN: reported bounds contain every schedule", "statement": "For every assignment of representable times satisfying all accepted constraints, each node's time lies between the reported lower and upper bounds, and each bound is attained by some such assignment.", "quantifier": "every accepted constraint sequence and every satisfying assignment", "why_tests_cant": "Quantifies over all assignments.", "anchors": ["structs/stn.hpp: Stn::lower, Stn::upper"]}
{"id": "C18", "title": "Run-length coding round-trips", "statement": "Decoding a run-length encoded byte string returns the original string, for all byte strings.", "quantifier": "every byte string", "why_tests_cant": "Run boundaries at 3 and 127 and literals interact.", "anchors": ["utils/encode.cc: runlenenc, runlendec"]}
{"id": "C19", "title": "Base64 coding round-trips and is RFC 4648 text", "statement": "base64dec(base64enc(s)) = s for all byte strings; the encoding has length 4*ceil(n/3), uses only the 64 character alphabet plus trailing '=' padding.", "quantifier": "every byte string", "why_tests_cant": "Unbounded input space.", "anchors": ["utils/encode.cc: base64enc, base64dec"]}
{"id": "C20", "title": "Ascii85 encoding is lossless", "statement": "Every ascii85 encoding is decodable by the standard (Adobe) decoder back to the original bytes.", "quantifier": "every byte string", "why_tests_cant": "The repository has no decoder to test against; input space unbounded.", "anchors": ["utils/encode.cc: ascii85enc"]}
{"id": "C21", "title": "Saved controls replay identically", "statement": "controlvec(controlstr(v)) = v for vectors of controls.", "quantifier": "every vector of unsigned controls", "why_tests_cant": "Fails only for values >= 128 (and >= 256) because of char signedness.", "anchors": ["plat2d/plat2d.cc: controlstr, controlvec", "gridnav/gridnav.cc: controlstr, controlvec", "traffic/traffic.cc: controlstr, controlvec"]}
{"id": "C22", "title": "Permutation rank is a perfect, order-preserving index", "statement": "Ranker::rank maps distinct duplicate-free sequences of length n over 0..sz-1 to distinct numbers below sz!/(sz-n)!, in lexicographic order.", "quantifier": "every sz, n and every pair of sequences", "why_tests_cant": "The number of sequences is factorial.", "anchors": ["utils/rank.cc: Ranker::rank"]}
{"id": "C23", "title": "Integer math helpers", "statement": "ilog2, ipow and fallfact return the mathematical value (as far as it fits in 64 bits).", "quantifier": "every argument", "why_tests_cant": "64-bit argument space.", "anchors": ["utils/math.cc: ilog2, ipow, fallfact"]}
{"id": "C24", "title": "Checked arithmetic never lies", "statement": "safe::add/sub/mul/div return the exact mathematical result or report overflow; they never wrap, never report a spurious overflow and never execute undefined behaviour.", "quantifier": "every pair of arguments of the type", "why_tests_cant": "Wrong only at boundary pairs (0,MIN), (-1,x), products equal to 2^(n-1), unsigned a<b.", "anchors": ["utils/safeops.hpp: safe::add, sub, mul, div, can_mul"]}
{"id": "C25", "title": "Random generator does not degenerate", "statement": "The generator's 64-bit state transition is a permutation, never enters the all-zero state from a non-zero state, and integer(min,max) always lies in [min,max].", "quantifier": "every state/seed and every range that does not overflow", "why_tests_cant": "2^64 states.", "anchors": ["utils/rand.cc: Rand::bits, integer"]}
{"id": "C26", "title": "Data files read back what was written", "statement": "A key/value pair written by dfpair is parsed by dfread as exactly that key and value.", "quantifier": "every key/value without quotes or newlines", "why_tests_cant": "Fails exactly at a buffer-size boundary.", "anchors": ["utils/datafile.cc: dfpair, dfpair_sz, dfrowhdr, dfrow, dfread", "utils/str.cc: hasprefix, gettoken, tokens", "utils/fs.cc: readline"]}
{"id": "C27", "title": "Path helpers are inverse", "statement": "pathcat(dirname(p), basename(p)) denotes p again for paths with a separator, and basename(pathcat(d,f)) = f.", "quantifier": "every path string", "why_tests_cant": "Unbounded strings.", "anchors": ["utils/fs.cc: basename, dirname, pathcat, pathcatn, ensuredir"]}
{"id": "C28", "title": "RDB attribute lists are ordered maps", "statement": "push/pop/rm/lookup/mem on an attribute list behave as an ordered map with unique keys: lookup after push returns the pushed value, queries do not change what is stored, and string() lists the pairs in order.", "quantifier": "every history of attribute operations", "why_tests_cant": "lookup on a missing key mutates the map; only a history can reveal it.", "anchors": ["rdb/rdb.hpp: RdbAttrs", "rdb/rdb.cc: RdbAttrs::push_back, push_front, rm, string; attrargs, frontpair"]}
{"id": "C29", "title": "A* returns a genuine solution", "statement": "If A* returns a path then it starts in the given initial state, every step is an applicable operator of the domain leading to the next state, it ends in a goal, and the reported operators correspond; the cost of the path does not exceed the g value at which the goal was expanded.", "quantifier": "every domain with non-negative costs, every heuristic, every tie-breaking", "why_tests_cant": "Ranges over all graphs and all tie-breaks.", "anchors": ["search/astar.hpp: Astar::search, expand, considerkid", "search/search.hpp: solpath"]}
{"id": "C30", "title": "A* is optimal with an admissible heuristic", "statement": "If h never over-estimates and costs are non-negative then the cost of the path returned by A* equals the least cost of any path to a goal, even when h is inconsistent (nodes are reopened) and although the operator leading back to the parent is skipped.", "quantifier": "every domain, every admissible heuristic, every tie-breaking", "why_tests_cant": "Ranges over all graphs.", "anchors": ["search/astar.hpp"]}
{"id": "C31", "title": "A* reports failure only if there is no solution", "statement": "If A* stops with an empty open list then no goal is reachable from the initial state; on finite state spaces A* always stops.", "quantifier": "every domain with non-negative costs", "why_tests_cant": "Ranges over all graphs; termination is a liveness claim.", "anchors": ["search/astar.hpp"]}
{"id": "C32", "title": "Expansion and generation limits are respected", "statement": "With an expansion limit L no search performs more than L expansions and the generated count exceeds its limit by less than one node's branching factor; a run cut off by the limit returns an empty path.", "quantifier": "every domain and limit", "why_tests_cant": "Ranges over all runs.", "anchors": ["search/search.hpp: Limit, SearchAlgorithm::limit", "search/astar.hpp"]}
{"id": "C33", "title": "IDA* is sound and optimal", "statement": "If IDA* returns a path it is a genuine path from the initial state to a goal and, with an admissible heuristic and non-negative costs, of least cost.", "quantifier": "every domain, admissible heuristic", "why_tests_cant": "Ranges over all graphs.", "anchors": ["search/idastar.hpp"]}
{"id": "C34", "title": "IDA* terminates on unsolvable finite problems", "statement": "IDA* stops and reports no solution when no goal is reachable and the search tree is finite.", "quantifier": "every finite unsolvable domain", "why_tests_cant": "Non-termination cannot be observed by a finite test.", "anchors": ["search/idastar.hpp: Idastar::search, minoob"]}
{"id": "C35", "title": "Weighted A* is bounded sub-optimal", "statement": "With weight w >= 1, an admissible heuristic and without -dropdups the returned cost is at most w times optimal; with or without -dropdups the returned path is genuine, failure means that no goal is reachable, and the search stops on finite spaces. With -dropdups there is no bound.", "quantifier": "every domain, weight, admissible heuristic, tie-breaking", "why_tests_cant": "Ranges over all graphs.", "anchors": ["search/wastar.hpp"]}
{"id": "C36", "title": "Greedy search finds a solution whenever one exists (finite space)", "statement": "Greedy/speediest search returns a genuine path, and stops without one only if no goal is reachable, with or without duplicate dropping.", "quantifier": "every domain, heuristic, tie-breaking", "why_tests_cant": "Ranges over all graphs.", "anchors": ["search/greedy.hpp"]}
{"id": "C37", "title": "Solution reconstruction is faithful", "statement": "The path vector built from parent pointers is goal-first, its last entry is the initial state, has exactly one more state than operators, replaying the operators from the initial state gives exactly the listed states, and reconstruction terminates.", "quantifier": "every reachable search state", "why_tests_cant": "Cyclic parent chains arise only in particular graphs.", "anchors": ["search/search.hpp: solpath"]}
{"id": "C38", "title": "ARA* incumbents improve and are bounded", "statement": "Successive solutions reported by ARA* have strictly decreasing cost, and each is within its current weight of optimal for a consistent heuristic.", "quantifier": "every domain, weight schedule", "why_tests_cant": "Ranges over all graphs and schedules.", "anchors": ["search/arastar.hpp: Arastar::search, improve, goodnodes, findbound, updateopen, expand, considerkid, nextwt, Incons"]}
{"id": "C39", "title": "Sliding tile moves are reversible", "statement": "Applying an operator to a tiles state and then the reverse operator given with the edge restores the state and costs the same; the blank stays on the board.", "quantifier": "every board size and state", "why_tests_cant": "Factorial state space.", "anchors": ["tiles/mdist.hpp: TilesMdist::Operators, TilesMdist::Edge, TilesMdist::ident", "tiles/tiles.cc: Tiles::initops"]}
{"id": "C40", "title": "Sliding tile heuristic is exact bookkeeping", "statement": "The incrementally maintained heuristic always equals the sum of Manhattan distances of the non-blank tiles to their goal positions.", "quantifier": "every state reachable by any operator sequence", "why_tests_cant": "Increments are accumulated over unbounded histories.", "anchors": ["tiles/mdist.hpp, tiles/mdist.cc: initincr, initmd, Edge"]}
{"id": "C41", "title": "Sliding tile heuristic is consistent and admissible", "statement": "One move changes the heuristic by at most its cost; the heuristic never exceeds the length of any solution; a state is reported as goal iff every tile is at its goal position.", "quantifier": "every state, every goal arrangement", "why_tests_cant": "Factorial state space.", "anchors": ["tiles/mdist.hpp: h, isgoal"]}
{"id": "C42", "title": "Packed tiles states are faithful", "statement": "Unpacking a packed tiles state gives back the state; two states are equal iff their packed words are equal.", "quantifier": "every arrangement of up to 16 tiles", "why_tests_cant": "16! states.", "anchors": ["tiles/packed.hpp, tiles/mdist.hpp: pack, unpack"]}
{"id": "C43", "title": "Pancake flips are involutions and the gap heuristic is maintained", "statement": "Flipping the same prefix twice restores the stack; the incrementally maintained heuristic equals the number of gaps.", "quantifier": "every stack size, stack and flip sequence", "why_tests_cant": "Factorial state space.", "anchors": ["pancake/pancake.hpp: Edge, flip, ngaps, gap"]}
{"id": "C44", "title": "Pancake gap heuristic is consistent, admissible and zero exactly at the sorted stack", "statement": "h changes by at most one per flip, never exceeds the number of flips needed, and is zero iff the stack is sorted.", "quantifier": "every permutation", "why_tests_cant": "Factorial state space.", "anchors": ["pancake/pancake.hpp"]}
{"id": "C45", "title": "Grid moves stay on the map", "statement": "On a grid with blocked border every applicable operator leads to an in-range, passable cell, and diagonal octile moves are allowed only when both orthogonal neighbours allow it.", "quantifier": "every map and cell", "why_tests_cant": "All maps.", "anchors": ["gridnav/gridmap.hpp: GridMap::ok, flagsok, coord", "gridnav/gridmap.cc: setsize, Move, setoctile, seteightway, setfourway", "gridnav/gridnav.hpp: Operators, Edge", "gridnav/gridnav.cc: reverseops"]}
{"id": "C46", "title": "Grid heuristics are admissible", "statement": "The heuristic used for four-way/eight-way unit-cost and life-cost grids never exceeds the cost of any path to the goal.", "quantifier": "every map, start, goal and path", "why_tests_cant": "All maps; life-cost heuristic is a closed formula.", "anchors": ["gridnav/gridnav.hpp: computeh, octiledist, manhattan, life4cheap, life8cheap, Cost"]}
{"id": "C47", "title": "Vacuum heuristic is admissible", "statement": "The vacuum world heuristic never exceeds the cost of cleaning the remaining dirt, and h never executes undefined behaviour.", "quantifier": "every map, dirt set and plan", "why_tests_cant": "All maps.", "anchors": ["vacuum/vacuum.hpp: h, Edge, Operators"]}
{"id": "C48", "title": "Vacuum heuristic is consistent", "statement": "One action changes the vacuum heuristic by at most the cost of the action.", "quantifier": "every state and action", "why_tests_cant": "All maps.", "anchors": ["vacuum/vacuum.hpp: h"]}
{"id": "C49", "title": "Moving obstacles stay on the traffic grid", "statement": "At every time an obstacle's position lies on the grid and is where an obstacle that bounces off the walls must be; the moves offered are exactly those that stay on the grid and do not run against an obstacle coming the other way; a move leads back to the start exactly if an obstacle is at its target at that time.", "quantifier": "every grid size, obstacle and time", "why_tests_cant": "Unbounded time.", "anchors": ["traffic/gridmap.hpp: GridMap::Obstacle::positionAt, GridMap::ok", "traffic/gridmap.cc: GridMap::setfourway", "traffic/traffic.hpp: Traffic::Operators, Traffic::Edge, Traffic::ident"]}
{"id": "C50", "title": "Traffic heuristic is admissible", "statement": "The Manhattan heuristic of the traffic domain never exceeds the cost of any plan.", "quantifier": "every instance and plan", "why_tests_cant": "All instances; teleport on collision breaks it only in special places.", "anchors": ["traffic/traffic.hpp: Traffic::h, Traffic::manhattan, Traffic::Edge", "traffic/traffic.cc: Traffic::initialstate"]}
{"id": "C51", "title": "Dock robot packed states are faithful", "statement": "Whatever operators have been applied, unpacking a packed dock-robot state gives a state with equal contents; packed states that compare equal come from equal states; every operator offered applies without a failed assertion, its undoing restores the state exactly at the advertised cost; every box stays in exactly one place and the goal test succeeds exactly if every box with a goal is there.", "quantifier": "every state and operator", "why_tests_cant": "Variable-size nested state.", "anchors": ["drobot/drobot.cc: Loc::pop, push, rmcrane, addcrane, State::State, Edge::apply, Operators, pack, unpack", "drobot/drobot.hpp: Loc::findpile, findcrane, Edge, PackedState::eq"]}
{"id": "C52", "title": "Segment poses wrap and bookkeeping of goals is exact", "statement": "The count of segments away from goal carried by a state equals the true count after any operator sequence, rotations stay within 0..nangles-1, no operation on a reachable state is undefined, the reverse operator restores all poses (the gripper stays at the segment), packing is faithful, the heuristic never overestimates, and A* with it returns cheapest solutions.", "quantifier": "every instance and operator sequence", "why_tests_cant": "Unbounded sequences.", "anchors": ["segments/segments.cc: Edge, wrapind, State::init, line, Operators, ok, cost, reverse, h", "segments/segments.hpp: State, PackedState, Oper"]}
{"id": "C53", "title": "Anytime stopping policy is optimal for its profile", "statement": "A profile made from ordered solution streams counts what it should and its estimates are probability distributions; with at least two time bins and a utility that does not grow with time, the policy computed by the anytime monitor maximises expected utility over all stopping policies, including ones that look at the whole history; stop() answers with that policy's decision.", "quantifier": "every set of solution streams, numbers of bins, weights (time weight not negative), every history-dependent policy, every start", "why_tests_cant": "Quantifies over all policies.", "anchors": ["search/anyprof/profile.hpp: AnytimeProfile::binprob, costbin, timebin, AnytimeMonitor::stop, binutil, index", "search/anyprof/profile.cc: AnytimeProfile::getextents, countsolutions, mkprobs, AnytimeMonitor::AnytimeMonitor"]}
{"id": "C54", "title": "Clearing a disjoint-set object makes it a fresh singleton", "statement": "After x.clear(), x is its own representative, no other object has representative x, and nobody else's grouping changes.", "quantifier": "all histories of join/find and all objects x", "why_tests_cant": "depends on the shape of the union forest left by an arbitrary history", "anchors": ["structs/djset.hpp: Djset::clear, Djset::find, Djset::join"]}
{"id": "C55", "title": "Pool memory is bounded by the peak number of live objects", "statement": "blocks() equals the number of blocks needed for the largest number of objects that were ever live simultaneously (at least one): returned objects are always reused before new storage is taken.", "quantifier": "every history of get/put/object writes, every positive block size", "why_tests_cant": "requires an invariant relating the free list to arbitrary histories", "anchors": ["utils/pool.hpp: Pool::get, put, newblk, blocks"]}
{"id": "C56", "title": "STN: named constraints mean what they say", "statement": "Before(i,j,a), After(i,j,a), NoEarlier(i,t), NoLater(i,t) and InWindow(i,s,e) are satisfied by exactly the assignments with x_j >= x_i + a, x_i >= x_j + a, x_i >= t, x_i <= t and s <= x_i <= e respectively.", "quantifier": "all nodes, finite times and assignments", "why_tests_cant": "The meaning is over all assignments; sample networks accept both readings.", "anchors": ["structs/stn.hpp: Stn::Before, After, NoEarlier, NoLater, InWindow"]}
{"id": "C57", "title": "Tiles instance files are validated", "statement": "Reading a tiles instance whose dimensions differ from the compiled ones, or that names a position outside the board, stops with an error; a well-formed instance puts every tile on its starting position.", "quantifier": "every instance file", "why_tests_cant": "Only particular wrong files slip through the check.", "anchors": ["tiles/tiles.cc: Tiles::readruml"]}
{"id": "C58", "title": "Sparse pattern database entries are not shared", "statement": "Different placements of the pattern tiles have different indices, all inside the cost table.", "quantifier": "every board size, pattern size and placement", "why_tests_cant": "Fails only where a 32-bit intermediate product wraps.", "anchors": ["tiles/pdb.hpp: SparsePdb::posind", "tiles/pdb.cc: SparsePdb::SparsePdb"]}
{"id": "C59", "title": "Dock robot heuristic is admissible", "statement": "The location distance table holds the costs of cheapest routes, the heuristic never exceeds the cost of any plan that brings every box to its goal location, and A* with it returns a cheapest such plan.", "quantifier": "every instance with non-negative travel costs, every reachable state and every plan", "why_tests_cant": "Admissibility compares the estimate with the cost of every plan; plans are unbounded in number.", "anchors": ["drobot/drobot.cc: initheuristic, hd", "drobot/drobot.hpp: h, isgoal"]}
{"id": "C60", "title": "Solution paths of the segments domain can be read back", "statement": "The path pair that is printed for a solution, read from the data file again, gives the operators of the solution in execution order; reading any text ends.", "quantifier": "every operator list whose numbers fit int", "why_tests_cant": "Depends on operator boundaries without separators, on negative numbers and on the 256 byte buffer of the writer, for unbounded paths.", "anchors": ["segments/segments.cc: pathcost, scanops, dfline, readdf"]}
{"id": "C61", "title": "The result data base gives each attribute set its own stable path", "statement": "Asking for the path of an attribute set either yields a path or stops the program with an error, never undefined behaviour; the path does not depend on the order of the attributes, is the same whenever it is asked for again however the data base was used in between, and two different attribute sets never get the same path; only directories on the way and the files naming their keys are created, nothing is removed.", "quantifier": "every file system, data base root, history of uses and attribute set whose keys and values can be file names, in every order in which directories may be listed", "why_tests_cant": "Quantifies over all histories of a data base whose directory tree depends on the order of earlier requests and on the listing order of the operating system.", "anchors": ["rdb/rdb.cc: pathfor, makepath, getkey, touch", "utils/fs.cc: fileexists, isdir, readdir, pathcat"]}
{"id": "C62", "title": "Queries of the result data base are exact", "statement": "A query returns exactly the files whose attributes agree with the query, each once; a file that was stored with some attributes is found by each query asking for some of these, however the data base was used since.", "quantifier": "every data base, history of uses, query and listing order", "why_tests_cant": "Quantifies over all directory trees that can arise and over all queries.", "anchors": ["rdb/rdb.cc: withattrs, collect, addfiles, getkey"]}
{"id": "C63", "title": "The attributes of a stored file can be read from its path", "statement": "The attributes that are derived from the path of a stored file are those it was stored with.", "quantifier": "every data base, history of uses and stored file", "why_tests_cant": "Depends on keys of all directories on the way, which are fixed by earlier, different requests.", "anchors": ["rdb/rdb.cc: pathattrs, getkey", "utils/fs.cc: dirname, basename"]}
{"id": "C64", "title": "Real-time A* reports a solution or nothing", "statement": "Whatever the random choices and limits, a real-time A* search reports nothing or a path from the initial state to a goal with its operators; without limits it reports nothing only after coming to a state without operators; a limit on expansions is kept exactly; the same object can be used for further searches after a reset.", "quantifier": "every domain, heuristic, lookahead depth, limit and sequence of random numbers", "why_tests_cant": "The walk depends on all random choices and on values learnt on the way.", "anchors": ["search/rtastar.hpp: search, bestkids, reset"]}
{"id": "C65", "title": "The lookahead of real-time A* is exact and its choice is right", "statement": "With a consistent heuristic the pruned lookahead gives the least cost plus heuristic value at the frontier; a step chooses among all the successors of least value and remembers the second best value for the state it leaves.", "quantifier": "every domain, consistent heuristic, depth, state and set of stored values", "why_tests_cant": "Pruning errors show only on particular orders of operators and values; the quantification is over all of them.", "anchors": ["search/rtastar.hpp: look, heuristic, bestkids, better"]}
{"id": "C66", "title": "Real-time A* finds a goal", "statement": "In a finite domain with positive costs in which a goal can be reached from every state, real-time A* comes to a goal.", "quantifier": "every such domain, consistent heuristic and sequence of random numbers", "why_tests_cant": "Termination for all domains; a run that does not end cannot be observed.", "anchors": ["search/rtastar.hpp: search, bestkids, storenode"]}
{"id": "C67", "title": "Searches on the real open and closed lists", "statement": "A*, weighted A* and greedy search, run with the open list (binary heap or integer buckets) and the hash table of closed nodes that the code uses, never do anything undefined, end on every finite state space, return an empty path exactly if no goal can be reached, and otherwise return a path with the promised quality: cheapest for A*, within the weight for weighted A*. The same holds for every later search on the same object after reset().", "quantifier": "every domain with at most 2^29 reachable states and no negative costs, every hash function, every number of searches and resets, every initial content of memory", "why_tests_cant": "The combination of all heap shapes, hash collisions, table growths, reopenings and earlier searches cannot be enumerated.", "anchors": ["search/astar.hpp: Astar::search, expand, considerkid, reset", "search/wastar.hpp: search, considerkid", "search/greedy.hpp: search, considerkid", "search/search.hpp: OpenList, solpath", "search/closedlist.hpp: ClosedList", "structs/binheap.hpp: BinHeap", "structs/htable.hpp"]}
{"id": "C68", "title": "Beam search", "statement": "A path returned by beam search leads from the initial state to a goal, whatever the width. Each layer expands the best nodes of the open list, as many as the width allows, best first. With -dropdups the search never does anything undefined, fails no assertion and ends on every finite state space; the same holds without -dropdups when the beam is at least as wide as there are reachable states, and then it finds a solution if there is one. The same holds for a narrow beam without -dropdups, and a missing -width is reported.", "quantifier": "every domain with at most 2^29 reachable states and no negative costs, every width, every hash function, both open lists, every number of searches and resets", "why_tests_cant": "Whether a dropped node is reached again, and where its stale position then points, depends on the whole graph and on the shape of the open list at that moment.", "anchors": ["search/beam.hpp: BeamSearch, search, expand, considerkid, reset", "search/search.hpp: OpenList::clear, mem, pre_update, post_update", "structs/binheap.hpp: BinHeap::clear, update"]}
{"id": "C69", "title": "LSS-LRTA* returns real solutions and true step counts", "statement": "A path returned by LSS-LRTA* leads from the initial state to a goal by operators of the domain, each applied to the state the previous one leads to; otherwise nothing is returned. The recorded lengths of the committed steps are positive and add up to the length of the path; with the one-step option each is 1. Only as many nodes are expanded as the lookahead allows for each step, and never more than the expansion limit.", "quantifier": "every domain without negative costs, every heuristic (also inconsistent), every weight, every sequence of lookaheads, every limit, both options, every order of walking through a table", "why_tests_cant": "a test sees some instances; the path is stitched together from many local searches, each of which starts with tables left by the one before", "anchors": ["search/lsslrtastar.hpp", "search/lsslrtastar.hpp: LsslrtaStar::search, expandLss, move"]}
{"id": "C70", "title": "What LSS-LRTA* learns", "statement": "After a local search without a goal the heuristic value of each state inside the local search space becomes the smallest value, over all ways to leave that space, of the cost of the way plus the old value of the state outside; no other value changes. With a consistent heuristic no value ever decreases, the learned heuristic stays consistent and never exceeds the cost of a way to a goal.", "quantifier": "every domain with positive costs in which a goal can be reached from everywhere, every consistent heuristic, every lookahead of at least 1, weight 1, every number of steps", "why_tests_cant": "learned values depend on the whole history of the search; the claim speaks about all ways out of the local search space", "anchors": ["search/lsslrtastar.hpp", "search/lsslrtastar.hpp: hCostLearning, expandLss"]}
{"id": "C71", "title": "LSS-LRTA* reaches the goal", "statement": "On a finite problem in which a goal can be reached from everywhere LSS-LRTA* with a consistent heuristic ends with a solution, and never does anything undefined or fails an assertion. A problem without a solution is reported as such.", "quantifier": "every finite domain with positive costs, every consistent heuristic, every lookahead of at least 1, every option", "why_tests_cant": "termination of a search that revisits states cannot be observed by running it", "anchors": ["search/lsslrtastar.hpp", "search/lsslrtastar.hpp: LsslrtaStar::search, move, bestOpen"]}
{"id": "C72", "title": "LSS-LRTA* with full lookahead is optimal", "statement": "If the lookahead is at least the number of reachable states then LSS-LRTA* returns a cheapest solution after a single step, like A*.", "quantifier": "every finite solvable domain without negative costs, every consistent heuristic that is 0 at goals, without the one-step option", "why_tests_cant": "the cheapest cost is a minimum over all ways, usually infinitely many", "anchors": ["search/lsslrtastar.hpp", "search/lsslrtastar.hpp: expandLss, move"]}
{"id": "C73", "title": "hashbytes depends on the bytes only", "statement": "hashbytes is a function of the bytes it is given: the same bytes at another address, with another alignment or with other memory around them have the same hash, and nothing but these bytes is read. The mixing of the registers loses no information; keys of the same length up to twelve bytes leave different registers.", "quantifier": "every memory content, every address, every length", "why_tests_cant": "the three alignments use different code for each length modulo 12, and a read past the end shows only if the memory behind the key cannot be read", "anchors": ["utils/hash.c: hashbytes, hashlittle2, mix, final", "pancake/pancake.hpp: State::hash", "drobot/drobot.hpp: PackedState::hash", "tiles/packed.hpp: PackedTiles::hash", "segments/segments.cc", "plat2d/plat2d.hpp: PackedState::hash"]}
{"id": "C74", "title": "Tile puzzles: solved exactly if the parities agree", "statement": "On a board of at least 2 x 2 cells an instance can be solved exactly if the inversions of the initial board plus row and column of its blank have the same parity as the inversions of the goal plus row and column of the goal cell of the blank. A* on at most 12 cells returns a shortest solution in the first case and the empty path in the second; IDA* returns a shortest solution in the first case, on boards of any size, and never returns in the second.", "quantifier": "every width and height from 2, every arrangement of the tiles, every goal", "why_tests_cant": "half of the 10^13 arrangements of the fifteen puzzle have no solution; no test can show that none of the others is missed", "anchors": ["tiles/mdist.hpp: TilesMdist, Edge", "tiles/mdist.cc: initialstate", "search/idastar.hpp: Idastar::search", "search/astar.hpp: Astar::search"]}
{"id": "C75", "title": "The tile puzzle generator writes solvable instances", "statement": "An instance is accepted by the generator exactly if the domain can solve it; what is written to the file is read back by the domain as the board that was tested, with tile t to go to cell t.", "quantifier": "every width and height, every sequence of shuffles", "why_tests_cant": "a wrong parity test shows only in instances on which a search runs for ever, and only for some shapes of the board", "anchors": ["tiles/generator.cc: solvable, writeruml, main", "tiles/tiles.cc: readruml"]}
{"id": "C76", "title": "Every stack of pancakes is sorted with the fewest flips", "statement": "Every stack of N different cakes can be sorted with at most 2(N-1) flips. A* (up to 12 cakes) and IDA* (any number) return, and what they return is a shortest sequence of flips that sorts the stack.", "quantifier": "every number of cakes, every stack", "why_tests_cant": "needs all stacks of all sizes", "anchors": ["pancake/pancake.hpp: State::flip, Edge", "search/idastar.hpp: Idastar::search", "search/astar.hpp: Astar::search"]}
{"id": "C77", "title": "Best-first search on grid maps, end to end", "statement": "On every grid map (octile, eight-way or four-way, with or without life costs) and for all cells start and finish inside the border, A*, weighted A* and greedy search on the heap and hash table of the code return; if there is a path of allowed steps from start to finish, A* returns one that no other path undercuts, weighted A* one that costs at most the weight times any other, greedy search some path; if there is none they return the empty path.", "quantifier": "all maps of at most 2^29 cells, all interior start and goal cells, all hash functions and initial capacities, all weights from 1", "why_tests_cant": "Quantifies over all maps and all pairs of cells, and compares with all paths.", "anchors": ["gridnav/gridnav.hpp: GridNav", "gridnav/gridmap.hpp: GridMap::ok", "search/astar.hpp: Astar::search", "search/wastar.hpp: Wastar::search", "search/greedy.hpp: Greedy::search"]}
{"id": "C78", "title": "Utility-guided search returns valid solutions and fails only if there are none", "statement": "Whatever the clock shows and however floating point numbers are rounded, Bugsy and Bugsy_slim return only legal paths from the initial state to a goal, return the empty path without a limit only if no goal is reachable, terminate on finite state spaces, and never read an uninitialised variable; resorting the open list keeps its nodes, recomputes every utility and restores the order.", "quantifier": "all domains with non-negative costs, all heuristics and distance estimates (even inadmissible), all clock readings, all arithmetic, all options", "why_tests_cant": "Depends on the timing of the machine and on all sequences of clock readings; reading an uninitialised variable usually goes unnoticed.", "anchors": ["search/bugsy.hpp: Bugsy", "search/bugsy-slim.hpp: Bugsy_slim"]}
{"id": "C79", "title": "Bugsy with all weight on cost is optimal", "statement": "With -wt 0 and a positive -wf, without corrections of the cost estimate and without -dropdups, in exact arithmetic, Bugsy returns a path that costs no more than any other if the heuristic never over-estimates; Bugsy_slim and -dropdups give no such guarantee.", "quantifier": "all domains, admissible heuristics, distance estimates, clock readings, resort times", "why_tests_cant": "Compares with all paths of all state spaces; independence of the clock cannot be tested.", "anchors": ["search/bugsy.hpp: Bugsy::search, considerkid, computeutil, updateopen", "search/bugsy-slim.hpp: Bugsy_slim::expand"]}
{"id": "C80", "title": "Command line options of Bugsy take effect", "statement": "Every option of Bugsy given on the command line has its documented effect, in any order and number; a search object is made only if both weights are given and not negative.", "quantifier": "all lists of options and values", "why_tests_cant": "All argument lists; the options interact by position.", "anchors": ["search/bugsy.hpp: Bugsy::Bugsy"]}
{"id": "C81", "title": "Boxes, segments and quadratic equations", "statement": "Two bounding boxes hit each other iff they share a point; the box of a set of points is the smallest one with all of them. Two line segments hit iff they share a point: a shared point of segments that are not parallel is returned exactly, in both directions, and what is returned lies within twice the tolerance of both segments. The solver for quadratic equations returns all roots and nothing else.", "quantifier": "all boxes, point sets, segments, coefficients, tolerances (exact arithmetic)", "why_tests_cant": "A continuum of inputs in general position and in degenerate positions; tests sample a few segments.", "anchors": ["utils/geom2d.hpp: Bbox, Line, LineSg::isect, LineSg::hits, LineSg::within, QuadEq::solutions"]}
{"id": "C82", "title": "Point in polygon, segment against polygon", "statement": "contains tells the inside from the outside of a polygon: the answer is the parity of the sides to the right of the point, it is the same at both ends of every path that meets no side, changes when one side is crossed, and is false outside the bounding box. A segment that meets a side hits the polygon; minisect returns a nearest intersection point.", "quantifier": "all polygons (convex or not, also self-intersecting), points, segments, paths", "why_tests_cant": "Topological statement about all paths and polygons; rays through vertices are the hard case.", "anchors": ["utils/geom2d.cc: Poly::contains, Poly::isects, Poly::minisect", "utils/geom2d.hpp: Poly::hits"]}
{"id": "C83", "title": "Building a polygon", "statement": "Building a polygon from two or more different points is defined; removing colinear vertices changes neither the set of points on the sides nor the inside, leaves no colinear vertex and keeps the order; the box is the one of all given points.", "quantifier": "all lists of vertices", "why_tests_cant": "Repeated vertices, vertices removed at the wrap-around and lists where everything is removed are all part of the claim.", "anchors": ["utils/geom2d.cc: Poly::Poly, removecolinear, initsides, interangle"]}
{"id": "C84", "title": "Lines of sight on maps of polygons", "statement": "If PolyMap::isvisible(a,b) is true, the segment from a to b shares no point with a side of an obstacle or of the bound, unless it runs along that side, and all its points are obstructed or none of them is; if it is false there is a place near the segment and near a side, or a is outside the bound. PolyMap::obstructed says whether a point is inside an obstacle or outside the bound. PolyMap::min and max give the extent of the map.", "quantifier": "all maps of polygons, all points and segments that are away from the numerical tolerances", "why_tests_cant": "Lines of sight fail on particular configurations (touching a corner, running along a wall, box tests); no finite set of maps covers them.", "anchors": ["visnav/polymap.hpp: PolyMap::isvisible, PolyMap::obstructed, PolyMap::min, PolyMap::max", "visnav/polymap.cc", "utils/geom2d.hpp: Poly::hits, LineSg::hits"]}
{"id": "C85", "title": "Visibility graphs link exactly what is in sight", "statement": "Building the visibility graph of a map never touches anything out of range; edges go both ways between different vertices and are as long as the distance of the points; the vertices are corners of the map and all corners around which a path may bend are there; two vertices are linked iff they see each other or are the two ends of a side. Adding a place keeps all this and links the new vertex to what it sees; scaling and moving the graph keep it too.", "quantifier": "all maps, all added points, all sequences of operations", "why_tests_cant": "A missing or a surplus edge only shows as a path that is not shortest or goes through a wall, on some maps.", "anchors": ["visnav/visgraph.cc: VisGraph::VisGraph, build, populateverts, addpoly, visedges, consideredge, addedge, add, scale, translate", "visnav/visgraph.hpp"]}
{"id": "C86", "title": "Navigation among polygons finds shortest routes of the visibility graph", "statement": "For every visibility graph and every start and finish place, A* returns a route from start to finish in the graph of least Euclidean length if there is one and the empty path otherwise; weighted A* one within the weight; greedy search any. All visited vertices are in range, the heuristic never overestimates, VisNav::pathcost returns the length of the answer without failing an assertion, and the answer can be drawn.", "quantifier": "all well-formed graphs up to 2^29 vertices, all pairs of places", "why_tests_cant": "Optimality over all routes of all graphs cannot be enumerated.", "anchors": ["visnav/visnav.hpp: VisNav, Oper, State, Operators, Edge, h", "visnav/visnav.cc: VisNav::VisNav, pathcost, save", "visnav/main.cc", "search/astar.hpp", "search/wastar.hpp", "search/greedy.hpp"]}
{"id": "C87", "title": "The player of a platform game stays inside the level and out of walls", "statement": "In a level that is surrounded by solid tiles, for every sequence of button presses of any length: every frame can be computed, reads only tiles of the level, ends its pixel-by-pixel movement after at most 15 steps, and leaves the player inside the level with no part of its bounding box in a solid tile.", "quantifier": "all closed levels with one start and one goal, all sequences of actions", "why_tests_cant": "The sequences of actions are unbounded and the positions are fractions of pixels; a penetrated wall may need a rare combination of speed, offset and tile borders.", "anchors": ["plat2d/body.cc: Body::move, Body::step, Body::dofall, Body::hitfall", "plat2d/player.cc: Player::act, xvel, chngjmp", "plat2d/lvl.cc: Lvl::isect, hitzone", "plat2d/tile.hpp: Tile", "utils/geom2d.hpp: Bbox"]}
{"id": "C88", "title": "A frame of the platform game moves the player by at most the assumed maximal speed", "statement": "In every closed level, along every sequence of actions, no edge generated by Plat2d fails an assertion: one frame moves the player's centre by at most Maxx = 3.25 pixels sideways and Maxy = 12 pixels up or down.", "quantifier": "all closed levels, all sequences of actions, all operators", "why_tests_cant": "The greatest speed depends on the history of water, air, jumps and collisions.", "anchors": ["plat2d/plat2d.hpp: Plat2d::Edge, Maxx, Maxy", "plat2d/body.hpp: Body::Maxdy", "plat2d/body.cc: Body::move, dofall", "plat2d/player.hpp: Player::Runspeed"]}
{"id": "C89", "title": "States, operators and reverse operators of the platform domain are faithful", "statement": "Unpacking a packed state gives the state; two reached states compare equal exactly if they are the same, and then have the same hash value; an operator reported to change nothing changes nothing; an operator that is left out has the same effect as one that is offered; the reverse operator of an edge leads back.", "quantifier": "all closed levels, all states reached by actions", "why_tests_cant": "It is about all pairs of reachable states, which are unbounded in number.", "anchors": ["plat2d/plat2d.hpp: PackedState, pack, unpack, Operators, Edge, ident", "plat2d/player.hpp: Player::canjump, operator==", "utils/hashbytes.cc"]}
{"id": "C90", "title": "The platform heuristic never overestimates", "statement": "The value h of a state is at most the number of frames of every sequence of actions leading from it to the goal tile; it is never negative, and zero exactly in the goal tile.", "quantifier": "all levels, all states, all sequences of actions that reach the goal", "why_tests_cant": "All ways to the goal from all states would have to be compared.", "anchors": ["plat2d/plat2d.hpp: Plat2d::hvis, goalpt, isgoal", "plat2d/plat2d.cc: Plat2d::Plat2d"]}
{"id": "C91", "title": "Level files are read correctly and levels with one start and one goal are accepted", "statement": "A level file is accepted exactly if it has depth one and the announced number of rows of the announced number of tile characters, and the tile at column x and row y is the x-th character of row y; the domain accepts a level exactly if it has one start and one goal tile, and finds their places.", "quantifier": "all files, all levels", "why_tests_cant": "All sizes and all contents of files.", "anchors": ["plat2d/lvl.cc: Lvl::Lvl, readtile", "plat2d/plat2d.cc: Plat2d::Plat2d", "plat2d/lvl.hpp: Lvl::majorblk, at"]}
{"id": "C92", "title": "The polygon map made from a bitmap obstructs exactly the blocked cells", "statement": "For a bitmap whose edge cells are blocked, constructing the polygon map finishes, all polygons have horizontal and vertical sides with integer end points, and a point in the interior of a cell is obstructed in the map if and only if its cell is blocked; points outside of the bitmap are obstructed. More precisely, unobstructed are the cells that can be reached, across sides of free cells, from the right-most free cell of the lowest row that has one.", "quantifier": "all bitmaps of all sizes, all points", "why_tests_cant": "There are unboundedly many bitmaps, with nested obstacles, holes and diagonal contacts; that tracing borders separates inside from outside is a topological fact about all of them.", "anchors": ["visnav/grid2poly.cc: PolyMap::PolyMap(const bool[], unsigned int, unsigned int), Comp::add, poly, clockwise, invert, blocked", "visnav/polymap.hpp: PolyMap::obstructed, Bound", "structs/djset.hpp: Djset", "utils/geom2d.hpp: Poly"]}
{"id": "C93", "title": "Bitmap files are read correctly", "statement": "A bitmap file is accepted exactly if, after the header, it has the announced number of cells written as 0 or 1, row after row, with spaces and line breaks anywhere and comments from a # at the start of a line to its end; the cell at column x and row y is the (y*w+x)-th one. The map made from such a file, if its edge is blocked and its free cells hang together, obstructs exactly the cells that are 1.", "quantifier": "all files, all sizes", "why_tests_cant": "All contents of files.", "anchors": ["visnav/pbm2poly.cc: readpbm, junkcomment, main"]}
{"id": "C94", "title": "Real-time search with corrected heuristics finds solutions and learns costs of leaving the local search space", "statement": "The search `fhatlrtastar` either reports nothing or a path and operators that lead from the start to a goal, whose length is the sum of the recorded step lengths; its limit on expansions is exact. If a goal can be reached from everywhere it never fails an assertion, the reported errors of h and d are not negative and that of d is below 1, learned values are never below the heuristic, and a local search gives each of its states the least cost of leaving it plus the value outside. With a consistent heuristic learned values never exceed the cost of a way to a goal, and the search ends with a solution. No step reads memory that was not written.", "quantifier": "all domains, heuristics, distance estimates, lookaheads, limits, starts", "why_tests_cant": "Whether the search ends and what it has learned depends on unboundedly many steps, and reading unwritten memory goes unnoticed in tests because fresh pool blocks often hold zeros.", "anchors": ["search/fhatlrtastar.hpp: Fhatlrtastar::search, expandLss, hCostLearning, move, expand, LssNode", "search/main.hpp: getsearch"]}
{"id": "C95", "title": "Grid map files are read as drawn", "statement": "A grid map file in the format with Board, costs and moves is read as the map it draws: the cell in column x of row y is passable exactly if the drawing has a space in column x of the y-th row from below, the border is out of bounds, costs and moves are as named, and reading stops right after the last word. An octile map file is read with the terrain of each character, first row first. A random map takes its obstacles from the random numbers column by column. Files that do not have such a drawing are refused.", "quantifier": "all files, all sizes up to 2^31 cells", "why_tests_cant": "All contents of files; orientation and border mistakes cancel out on symmetric or square test maps, and reading unwritten table entries goes unnoticed.", "anchors": ["gridnav/gridmap.cc: GridMap::load, load_ruml, load_sturtevant, load_seedinst, uniform, setsize"]}
{"id": "C96", "title": "Grid navigation from the instance file to the cheapest path", "statement": "For every instance file that is accepted start and goal are passable cells of the map, at the given coordinates, and A* prints a cheapest path between them or none if there is none. Well-formed instances on every kind of map are accepted; coordinates outside of the map are refused. The generator of random instances chooses passable cells for every seed.", "quantifier": "all instance files, all seeds", "why_tests_cant": "All files and all seeds; reads outside of the map or of unwritten members give plausible results in tests.", "anchors": ["gridnav/main_gridnav.cc: main", "gridnav/randinst.cc: main", "gridnav/gridmap.hpp: GridMap::GridMap(FILE*), index, blkd"]}
{"id": "C97", "title": "Converting a grid map to a polygon map keeps the obstacles", "statement": "The polygon map made from a grid map whose passable cells hang together obstructs exactly the points in blocked cells.", "quantifier": "all grid maps", "why_tests_cant": "All sizes and contents; on square maps a mistake in the indexing cannot be seen.", "anchors": ["gridnav/2poly.cc: main"]}
{"id": "C98", "title": "DTA*'s table holds the probabilities of its samples", "statement": "After reading the off-line samples (heuristic value, depth, value found at that depth), the entry of the table for a heuristic value, a depth and a value is the fraction of the samples of that heuristic value and depth whose value found is above; every well-formed sample file gives a table.", "quantifier": "all lists of samples", "why_tests_cant": "All samples; a wrong table is still a table, and the search works with it.", "anchors": ["search/dtastar.hpp: ProbTable, readData, findExtremes, hbin, fbin, bin"]}
{"id": "C99", "title": "DTA* keeps searching exactly when the expected gain is worth the time", "statement": "Given the open nodes of the best action, the value of the second action, the table and the price of time, the search goes on exactly if for some first nodes of the open list and some depth the probability that they all become worse, summed up over the values above that of the second action, is at least the cost of searching to that depth; the decision is always made.", "quantifier": "all tables, open lists, values and prices", "why_tests_cant": "The condition ranges over all subsets, depths and values; a wrong decision only costs time.", "anchors": ["search/dtastar.hpp: keepGoing"]}
{"id": "C100", "title": "DTA* moves legally, learns soundly and does not fail", "statement": "Whatever DTA* reports is a legal path to a goal; it never fails an assertion or has undefined behaviour; it respects the limit; a goal that was found is not left; learned values do not exceed true costs with an admissible heuristic.", "quantifier": "all domains, heuristics, tables, limits and starts", "why_tests_cant": "All graphs and all interleavings of local searches; undefined reads mostly give plausible values.", "anchors": ["search/dtastar.hpp: Dtastar, Lss, Graph, step, search, learn, expand, fg"]}
{"id": "C101", "title": "Limits given on the command line are the limits of the search", "statement": "Every limit (expansions, generated nodes, memory, CPU and wall time) is the last value given to its option, and there is no limit if the option is not given; what is no number is refused. When the time is up exactly the search that is timed is told so, at whatever moment the timer strikes, and a search that is used again has its whole time again.", "quantifier": "all command lines, all interleavings of calls and timer signals", "why_tests_cant": "All command lines; signals arrive at any instruction.", "anchors": ["search/search.cc: Limit::Limit, Limit::memlimit, Limit::start, Limit::finish, handletimeout, settimer, stoptimer", "search/search.hpp: Limit::reached, SearchAlgorithm", "search/main.hpp: getsearch", "plat2d/main.cc: get"]}
{"id": "C102", "title": "The look-ahead of the real-time searches is the one asked for, and the dynamic one keeps the deadline", "statement": "The number of expansions of a local search is the number given with -lookahead; what is not a positive number is refused. With -dynlss the table has for every size the longest time of its training runs, it is the same when it is read from the cache, and the size chosen for a given time is the largest one whose time fits into it.", "quantifier": "all command lines, training runs, caches, costs and times", "why_tests_cant": "All tables and times; a size that is too large only misses deadlines.", "anchors": ["search/search.cc: LookaheadLimit::fromArgs", "search/lsslrtastar.hpp: ExpansionLimit, MaxTimeLimit"]}
{"id": "C103", "title": "The costs A* and weighted A* work with are those of their paths", "statement": "Whenever A* or weighted A* takes a node out of the open list, the path to its state that would be reconstructed at that moment costs exactly the g value of the node; so the solution returned costs exactly what the goal node says. This holds for every heuristic, over-estimating and inconsistent ones included, although nodes below an improved node keep outdated values for a while.", "quantifier": "every domain with non-negative costs and exact reverse operators, every heuristic and weight, every tie-breaking, with and without dropping of duplicates", "why_tests_cant": "Outdated values occur only in particular graphs with inconsistent heuristics and particular orders of expansion.", "anchors": ["search/astar.hpp: Astar::considerkid", "search/wastar.hpp: Wastar::considerkid", "search/greedy.hpp: Greedy::considerkid", "search/search.hpp: solpath"]}
{"id": "C104", "title": "The rows that A* prints about its solution are true", "statement": "The dumping variant of A* finds the paths of A* and prints one row for each state of the path, goal first: the heuristic and the distance estimate of the state, the number and the cost of the operators before it, and the number and the cost of the operators after it. With a heuristic that never over-estimates the last value is the true cost to go of the state.", "quantifier": "every domain with non-negative costs and exact reverse operators, every heuristic, every tie-breaking, every row", "why_tests_cant": "The additional fields are copied when a better path is found; outdated ones show only in particular graphs.", "anchors": ["search/astar-dump.hpp: Astar_dump::search, considerkid, dumpgoal"]}
{"id": "C105", "title": "Random trees return real paths and can find every reachable goal", "statement": "The search by rapidly exploring random trees expands a node nearest to each sample, adds the successor nearest to the sample among the operators not yet used there, stops at the first goal, and returns the operators and states of a path from the start state to that goal; it obeys the limits, uses the seed given with -s, stops at once if the start state is a goal, can be reset, and suitable samples make it find a goal whenever one can be reached.", "quantifier": "every domain, every map of states to points, every sequence of samples", "why_tests_cant": "The behaviour depends on the random samples; a test sees one sequence, and the missing tests for limits show only when no goal is found.", "anchors": ["search/rrt.hpp: RRT::RRT, search, reset", "structs/kdtree.hpp: Kdtree::nearest"]}
{"id": "C106", "title": "Sampled look-ahead values are what they are said to be", "statement": "The search that dumps look-ahead values returns a real solution or nothing; sampling a step does not change where the search goes; each sample prints, for each depth up to the horizon, the least f value of a look-ahead of that depth: it is not less than the heuristic, is attained by a walk of that many operators, and is a lower bound of the cost of a cheapest solution; no assertion fails.", "quantifier": "every domain with consistent heuristic, every choice of sampled steps, every horizon and look-ahead", "why_tests_cant": "Which steps are sampled is random, and the table of costs persists over depths, so the values depend on the whole history of a sample; a test sees a few samples of one problem.", "anchors": ["search/dtastar-dump.hpp: Dtastar_dump::search, evaluate, dfs, expand"]}
{"id": "C107", "title": "Best-first search tolerates rounding of costs", "statement": "When costs are floating point numbers, so that every sum is rounded, A* and its relatives still return a legal path to a goal whose parent pointers lead back to the start, find a goal if one is reachable, end on finite state spaces, report a cost that is at most the g of the goal node, and return a path whose cost is the least one up to the relative error of adding up the costs of a path.", "quantifier": "every domain with costs that are not negative, every number of digits, every order of the open list and every run", "why_tests_cant": "Rounding errors depend on the magnitudes and the order of the sums; tests use small numbers whose sums are exact, and a lost node, an endless loop or a worse path appears only for particular magnitudes reached in a particular order.", "anchors": ["search/astar.hpp: Astar::considerkid, search", "search/wastar.hpp: considerkid", "search/search.hpp: solpath", "visnav/visnav.hpp: Cost", "segments/segments.hpp: Cost", "drobot/drobot.hpp: Cost"]}
{"id": "C108", "title": "Scenario files are run entry by entry and checked against their optimal costs", "statement": "Given a scenario file, the scenario program runs the search on exactly the selected entries, in order, each on the map its entry names, and prints one row for each with the cost of the path found; it goes through exactly if each cost agrees with the optimal cost of the entry up to the tolerance, where cost 0 stands for no path; malformed files are reported. The conversion program writes one data file per entry with the fields of that entry.", "quantifier": "every scenario file with any white space, every directory of maps, every search", "why_tests_cant": "The benchmark files always have a path, a complete last line and names without percent signs; which header, unreachable goal, cut-off line or coordinate breaks the run is a question about all files.", "anchors": ["gridnav/scenario.cc: main, ScenarioEntry::run, Scenario::getmap, checkver", "gridnav/scenario.hpp: Scenario, ScenarioEntry", "gridnav/scenario2rdb.cc: main", "gridnav/gridnav.cc: GridNav::pathcost"]}
{"id": "C109", "title": "Visibility maps and graphs survive being written to a file", "statement": "Reading a polygon map or a visibility graph that was written gives the same polygons, bound, vertices and edges, up to the rounding of the printed numbers, and leaves the rest of the input for the start and goal; what was read once does not change when it is written and read again; the straight-line heuristic stays admissible on a graph that was read; a file that is not well-formed is rejected.", "quantifier": "every map and graph with fewer than 2^32 parts, every number format that reads back what it prints, every text that follows", "why_tests_cant": "A round trip of a small map with short coordinates says nothing about coordinates with more digits, polygons below the precision of the format, files with other white space, or files without the count of vertices.", "anchors": ["visnav/polymap.cc: PolyMap::input, PolyMap::output", "visnav/visgraph.cc: VisGraph::VisGraph, VisGraph::output, Vert, Edge", "utils/geom2d.cc: Poly::Poly(FILE*), Poly::output", "visnav/inst.cc: main", "visnav/main.cc: main"]}
{"id": "C110", "title": "Adding attributes to a data file and checking that it is complete", "statement": "addattrs leaves every record of the data file in its place and puts the attributes of the command line whose keys are not in the file yet, in their order, before the first pair, so that reading the file gives them; doing it twice is the same as doing it once; a complete file stays complete. dfcmplt succeeds exactly for files whose first line is the one of the header and whose last line is the one of the footer, so a file that was cut off while it was written is never taken for a complete one.", "quantifier": "every list of records that the writers support, every list of attributes, every file without blank lines, every place where the file is cut", "why_tests_cant": "The properties speak about every file, every place where a file can be cut and every combination of keys that are in the file or repeated on the command line; a test shows single files.", "anchors": ["rdb/addattrs.cc: main, dfline", "rdb/dfcmplt.cc: main", "utils/fs.cc: readline", "utils/datafile.cc: dfread, dfpair", "rdb/rdb.cc: attrargs"]}
{"id": "C111", "title": "Traffic instances survive being written to a file, and random ones can be solved", "statement": "Reading a traffic instance gives the grid, the locations and exactly the obstacles that the file shows, in whatever layout of white space; an instance that is printed and read again is the same; a file that does not have the form of an instance is rejected. What the generator of random instances prints can be solved, with start and goal in opposite corners and obstacles that begin off the first row and column and move at most one cell at a time.", "quantifier": "every instance whose numbers fit in the types, every text of numbers between white space, every outcome of the random numbers and every order of ties in the search of the generator", "why_tests_cant": "Tests read single files in the layout of the writer and cannot run through all layouts, truncated files and random draws.", "anchors": ["traffic/traffic.hpp: Traffic::Traffic(FILE*), Traffic::output", "traffic/gridmap.cc: GridMap::load", "traffic/gridmap.hpp: GridMap::output, Obstacle::output", "traffic/randinst.cc: main"]}
{"id": "C112", "title": "Random polygons are simple, and random maps have no overlapping obstacles", "statement": "A random polygon has its corners among the points that were drawn, goes through all of them, and its sides go round clockwise without crossing or touching each other. The polygons of a random map lie in the unit square, and the boxes around any two of them are disjoint; the map goes to the file that was asked for.", "quantifier": "every number and position of points, every order in which sorting leaves points with the same x coordinate, every option of the generator and every outcome of its random numbers", "why_tests_cant": "Tests see some random polygons; crossing sides or degenerate positions are rare events among infinitely many draws.", "anchors": ["utils/geom2d.cc: Poly::random, xsortedpts, cmpx", "utils/geom2d.hpp: Line::isabove", "visnav/rand.cc: main, randpolys, rnddbl"]}
{"id": "C113", "title": "The distance estimate of the segments domain is a lower bound on the number of actions", "statement": "On every state the estimate of the number of remaining actions is defined, a natural number, zero exactly on goals, never more than the cost heuristic and never more than the number of actions of any plan to a goal; one action changes it by at most one; and if nothing is in the way there is a plan with exactly that many actions.", "quantifier": "every instance and geometry, every consistent state, every plan", "why_tests_cant": "Tests compare the estimate with a few solutions that were found; a bound on the length of all plans quantifies over unboundedly many plans, and the wrap-around of coordinates and rotations is far from the tested instances.", "anchors": ["segments/segments.cc: Segments::d, wrapind", "segments/segments.hpp: Segments::State"]}
{"id": "C114", "title": "Generated segments instances are valid, and files of instances are read back as written", "statement": "The generator makes instances in which all starts and goals are poses within the area, with radii between the two given, no two starts and no two goals touch, and none touches the bounds of the area; what it prints is read as the same instance up to the rounding of radii, and lines of comments are skipped; the instance is also valid for the bounds that the reader sets up.", "quantifier": "every option of the generator, every outcome of its random numbers, every instance, every text of comments", "why_tests_cant": "Tests generate some instances with default options (a square area); degenerate positions and other shapes of the area are not seen, and reading a damaged file may not end.", "anchors": ["segments/segments.cc: Segments::Segments(FILE*), Segments::Segments(unsigned int, unsigned int, unsigned int, const std::vector<Seg>&), line", "segments/mkinst.cc: mkinst"]}
{"id": "C115", "title": "The map made from an image has the white pixels as its free cells", "statement": "For an image in the textual format P3 with comments in its header, the converter prints the beginning of a map file of the same size in which exactly the cells of the white pixels are free; with the kinds of costs and moves added the file is read as that map; an image with too few numbers is an error.", "quantifier": "every image, every size, every full brightness, every placement of white space and comments", "why_tests_cant": "A test with an image of one colour passes although every number is read one place late; only images with edges show it, and the claim is about all images.", "anchors": ["gridnav/ppm2grid.cc: main, white, readsize, nextline", "utils/fs.cc: readline", "gridnav/gridmap.cc: GridMap::load_ruml"]}
{"id": "C116", "title": "Instances made from a seed can be solved", "statement": "The generator prints the instance for the first seed, from the given one on, for which the first and the last cell of the first row are free and connected; it ends if there is such a seed; the solver reads the text as an instance on the same map with the given kinds of costs and moves, and there is a path from its start to its goal.", "quantifier": "every size, probability, seed and kind of costs and moves", "why_tests_cant": "Whether all seeds before the printed one fail, and whether the map that is drawn again is the one that was searched, depends on every random number; the rounding of the probability matters only if a number falls between the two values.", "anchors": ["gridnav/mkseedinst.cc: main, solvable, parseargs", "gridnav/gridmap.cc: GridMap::uniform, GridMap::load_seedinst", "search/greedy.hpp: Greedy::search", "gridnav/main_gridnav.cc: main"]}
{"id": "C117", "title": "The learned heuristic fits a fair sample of the paths", "statement": "The records of all path rows of the given files are sampled with equal chance; every row of the sample is filled; and the printed coefficients of h, g, d and depth have the least squared error over the sample among all coefficients.", "quantifier": "all sequences of records, all sizes of the sample, all sequences of random numbers", "why_tests_cant": "The chance of a record is a statement about all sequences of random numbers; a single run shows one sample, and every sample looks plausible.  That no other coefficients are better is a statement about all reals.", "anchors": ["search/learnh/hlms.cc: main, dfline", "search/learnh/leastsquares.cc: leastsquares", "search/astar-dump.hpp: AstarDump::search", "utils/rand.cc: Rand::integer"]}
{"id": "C118", "title": "The best weight is the one with the least mean loss", "statement": "For the files of a database that can be opened, the program prints a weight of some file such that the mean of wf*cost + wt*time over the files with that weight is at most that of every other weight; the values of a file are those of its last pairs; a file that lacks one, or has an infinite one, is an error.", "quantifier": "all sets of files, all factors wf and wt, all numbers of runs per weight", "why_tests_cant": "The mean is kept incrementally in one map and compared through another look-up; that it is the arithmetic mean for every order and mixture of files is an induction over the files.", "anchors": ["search/anyprof/bestwt.cc: main, dfline", "utils/datafile.cc: dfread", "search/wastar.hpp: Wastar::output"]}
{"id": "C119", "title": "A saved picture shows the pixels that were set, on the page", "statement": "The data of a saved picture, read by the filters that the file names, are three bytes per pixel, row by row, for the colour that was set last or white; on a letter page the picture lies inside of the margins, is centred and is as large as they allow; the file begins as a PostScript program must; lines, points, arcs and polygons are paths of their own; a text is shown as it is given, to the left, to the right or in the middle of its place.", "quantifier": "all sizes, all sequences of pixels and colours, all margins, all polygons", "why_tests_cant": "The encoded data can only be judged by decoding it with the filters of the PostScript manual, for all runs of equal and different bytes; the placement is a statement about all sizes and margins.", "anchors": ["graphics/image.cc: Image::encode_epsdata, Image::write_epshdrletter, Image::write_epshdr, Image::Line::writeeps, Image::Poly::writeeps", "graphics/image.hpp: Color, Image::setpixel", "utils/encode.cc: runlenenc, ascii85enc"]}
{"id": "C120", "title": "A profile survives being saved", "statement": "The solutions in the log files of an anytime search become the profile of these solutions; saving the profile and reading it gives the same bins, counts, ranges and probabilities, so that a monitor makes the same decisions; a file that is cut is an error.", "quantifier": "all sets of log files, all numbers of bins, all profiles", "why_tests_cant": "The ranges change only for costs with more than six digits, and the decisions only for solutions near the ends of the ranges; whether every count goes back to its own place is a statement about all sizes.", "anchors": ["search/anyprof/mkprof.cc: main, dfline", "search/anyprof/profile.cc: AnytimeProfile::save, AnytimeProfile::read", "search/anyprof/profile.hpp: AnytimeMonitor::stop", "search/arastar.hpp: Arastar::row"]}
{"id": "C121", "title": "The reported memory is the peak of the process", "statement": "The memory that a program reports about itself is the number that the system gives for the peak of its virtual memory, whatever else the system says about the process; if the system says nothing, it is 0.", "quantifier": "all status files: all lines before and after, all names of the process, all numbers", "why_tests_cant": "The status file of a test is the one of the test; what the lines before the number may contain, and how long they may be, is a statement about all files.", "anchors": ["utils/mem.cc: virtmem", "utils/utils.hpp: virtmem"]}
{"id": "C122", "title": "Error messages are printed whole, with their reason", "statement": "A warning or a fatal error prints its whole message, and if there is an error number also the reason, on one line.", "quantifier": "all messages and reasons", "why_tests_cant": "The messages contain paths and input of any length; a test sees short ones.", "anchors": ["utils/fatal.cc: warn, warnx, fatal, fatalx"]}
