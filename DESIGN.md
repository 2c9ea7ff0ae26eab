# Design of the formal model of eaburns/search

This file was begun before the proofs and is kept current. The authoritative list of theorem names per property is
`MANIFEST.json`; the properties themselves are in `properties.jsonl`; the mutation runs are in `seeded/LOG.jsonl`.

## Trusted base

* The kernel of Lean 4.33.0. Mathlib is used as a library; everything in it is checked by the same kernel.
* Axioms: every theorem named in `MANIFEST.json` depends on at most `propext`, `Classical.choice` and `Quot.sound`
  (see "Axioms"). No own axioms, no `sorry`/`admit`, no `native_decide`, no `bv_decide`, no `implemented_by`, no
  `unsafe`.
* The hand translation from C++ to Lean. Every Lean definition that models code cites file and lines of /repo and
  says where it is simplified.
* Reading the specifications: the definitions below the heading "Specification" of a model file and the statements in
  `Verif/Props`. They are what the English of `properties.jsonl` was turned into.

Not modelled anywhere: the C++ compiler and template machinery, the allocator (`new` never fails), the operating
system (time, processes, signals), `printf` formatting of floating point numbers, graphics and SDL, and rounding of
floating point numbers: `double` and `float` values are exact elements of an ordered field (rationals, reals, or any),
except in C107, where the best-first searches run with IEEE rounding of sums (no overflow, no NaN).

## Modelling conventions

* `Outcome α` (`Verif/Outcome.lean`) is the result of running code: `ok a`, `fatal` (a failed assertion, a call of
  `fatal`, a thrown exception), `ub` (undefined behaviour: access out of bounds, uninitialised read, signed overflow,
  division by zero, null dereference), `nofuel` (the loop did not end within the given number of steps). Theorems state
  that the outcome is `ok`, or that it is `ub`/`fatal` exactly when they say so.
* Pointers and nodes are identifiers. Intrusive lists are memories of `nxt` fields (`Structs/Chain.lean`).
* `std::vector` and C arrays are lists, vectors, or functions with a size. Access out of range is `ub` unless the model
  carries a proof that it cannot happen.
* Machine integers are integers, with wrap-around or a range check wherever the code can leave the range; where a range
  is assumed the file header says so.
* Loops are structural recursion, recursion on a measure, or take fuel; with fuel the theorems either hold for all
  fuels or prove that a stated amount is enough.
* A data structure theorem quantifies over all histories of calls (`Exec`-like relations) from the constructor.
* Searches are parametrised by a domain `Dom S O C` (operators, successor, cost, reverse operator, goal test). `pop` may
  return any node that no open node precedes, so the theorems hold for every tie-breaking. Limits are an oracle. C67
  connects this abstract engine with the open and closed lists of the code.
* What a search needs of its domain: `CostOk` (no negative costs), `UndoOk` (the reverse operator of a generated edge,
  if offered, does not lead to a state from which plans are dearer; the identity operator is not offered) or `DomOk`
  (the reverse operator leads back exactly). Each domain proves what it can.
* `Verif/<Area>/<X>.lean` is the model, the specification and helper lemmas; `Verif/Props/<X>.lean` has the property
  theorems, each with an `example` of a concrete case meeting the hypotheses.

## Properties: what is modelled and how it is proved

| id | model | proof method | not covered, or hypotheses |
|----|-------|--------------|----------------------------|
| C01, C02 | `Structs/BinHeap`: vector, `setind` memory, any `pred` | sift lemmas, invariant over histories, refinement to a multiset | order must be a strict weak order; sizes unbounded except the 32-bit cast in `update` |
| C03, C04 | `Structs/Hash`, closed list variant: bucket heads and `nxt` memory | invariant over histories incl. growth; refinement to a set | equal keys hash alike, at least one bucket (both shown necessary) |
| C05, C06 | `Structs/Hash`, `Htable` variant with the `rm` of the code | negation with witness; correctness in the special case | - |
| C07 | `Structs/Intpq`: buckets, `nxt`/`prev` memories, cursor | invariant over histories | membership only without `clear` (negation proved) |
| C08, C54 | `Structs/Djset`: parent and rank memories, path compression | invariant: roots are the classes of the joins | ranks unbounded; `clear` false in general |
| C09 | `Search/BucketOpen`: two-level bucket queue, `ind` memory | invariant over histories | priorities non-negative (UB otherwise) |
| C10 | `Search/BucketOpen`, `Props/HeapOpen` | negation with witness, partial for histories without `clear` | - |
| C11, C55 | `Utils`/`Structs/Pool`: blocks, intrusive free list overwritten by the client | invariant: live, free and fresh slots partition the storage | - |
| C12, C13 | `Structs/KdTree`: splitting tree over any ordered field | induction on the tree with bounding half-spaces | exact arithmetic |
| C14-C17, C56 | `Structs/Stn`: arcs, bounds, undo stack, recursive propagation with clamped times | termination by unseen nodes, closure of the propagation, potentials | - |
| C18-C21 | `Utils/Encode`: lists of bytes, signed `char` | induction on the string; independent RFC 4648 and Ascii85 decoders | sizes below 2^32 |
| C22 | `Utils/Rank`: the counting tree | Lehmer code arithmetic | ranges the types need |
| C23, C24 | `Utils/Math`, `Utils/SafeOps` | arithmetic; negations with witnesses | - |
| C25 | `Utils/Rand`: xor-shift on 64 bits | invertibility of each step | - |
| C26 | `Utils/Str`, `Utils/Datafile`: bytes, static buffers of 256 bytes, `readline`, tokens | induction over the items written | formatted doubles are inputs; negations at the buffer boundary |
| C27 | `Utils/Path`: path strings, abstract file system for `ensuredir` | induction on components | no links, `..`, permissions |
| C28 | `Rdb/Attrs`: map and key deque | refinement over histories; induction on the arguments | - |
| C29-C32, C37 | `Search/BestFirst`, `Algs`: one engine for A*, weighted A*, greedy | invariant of the node tree, frontier lemma | packed states identified with states |
| C33, C34 | `Search/Idastar` | induction on the depth-first search; witness of divergence | `DomOk` |
| C35, C36 | as C29 with other priorities and `dropdups` | frontier lemma with weights | - |
| C38 | `Search/Arastar*`: incumbents, inconsistent list, shared hash link as an oracle | invariant over rounds | growth of the tables while sharing links |
| C39-C42, C57, C58 | `Domains/Tiles`, `Domains/Pdb` | sums over tile positions | Manhattan distance heuristic; pattern database lookups only for the index |
| C43, C44 | `Domains/Pancake` | list reversal, counting gaps | - |
| C45, C46 | `Domains/GridNav`: border, flags, three move sets, two cost models | case analysis, potential function | map file formats |
| C47, C48 | `Domains/Vacuum` | potential argument; witness for inconsistency | no charging stations |
| C49, C50 | `Domains/Traffic` | reflection arithmetic; witness | - |
| C51, C59 | `Domains/DockRobot*`: cranes, piles, packing, Floyd-Warshall table, heuristic | sorted list lemmas, invariant, relaxation argument | `d` estimate, file format |
| C52 | `Domains/Segments*`: poses, lines, operators, edges, heuristic for any geometry | modular arithmetic, relaxation argument, `UndoOk` | utils/geom2d is a parameter; the `d` estimate is C113 |
| C53 | `Search/Profile`: histogram and stopping policy | backward induction against all stopping rules | exact rationals |
| C60 | `Domains/SegmentsPath` with `Utils/Datafile` | induction on the operators; stream model | 241-character paths (negation proved) |
| C61 | `Rdb/Store`, `Rdb/StoreThms`: the file system is a map, the listing order of directories a parameter | invariant of the directory tree over histories; the way of an attribute set as an inductive relation; uniqueness and injectivity by induction on it | value `UNSPECIFIED` (negation proved) |
| C62 | the same | loop of `collect` lists exactly the specified files; relation to stored attributes | files that lack a key of the query are returned (negation proved) |
| C63 | the same | loop of `pathattrs` by induction on the path from the end | root `.` or `/`: never returns (negation proved) |
| C64 | `Search/Rtastar`: `search/rtastar.hpp`, limit and random generator arbitrary functions | induction on the rounds | second search after `reset` (negation proved) |
| C65 | the same | lookahead against the least leaf value (`WithTop`), alternatives against `filter` | steps into the initial state (its value is being overwritten) |
| C66 | the same | invariant of the stored values for exact heuristics | violated: runs for ever (negation proved) |
| C67 | `Search/OpenImpl`, `Search/Concrete`: A*, weighted A*, greedy search on the models of C01/C09 (open list) and C03 (closed list), with `reset` | simulation of C29's engine: every open list satisfying `OpenLaw` and the table refine the abstract lists; termination transferred | at most 2^29 stored states; non-negative keys for the buckets (UB otherwise, proved) |
| C68 | `Search/Beam`, `Search/BeamThms`: beam search on the same lists | solutions: simulation by a search on a plain set, so that a broken list does not matter; safety and end: invariant of C29 with more nodes marked open (`flag`), decreasing path costs | violated for narrow beams without `-dropdups` and without `-width` (negations proved) |
| C69 | `Search/Lss`, `Search/LssInv`: LSS-LRTA* with its pool of nodes, node tables, heaps and counters | invariant of the main loop: the operators so far are a plan to the current state | the order of walking through the table is any enumeration of its members |
| C70 | `Search/LssStrong`: local A* with a consistent heuristic never reopens; `Search/LssLearn`: learning as Dijkstra's algorithm from the frontier; `Exit` = a way out of the local search space | invariants of both loops | |
| C71 | `Search/LssRun` | the learned values are drawn from a finite set, never decrease, and one decreases `h(cur)` minus the rest lexicographically | violated with the one-step option (the search can pace between two states for ever), for unsolvable problems and in dead ends (negations proved) |
| C72 | `Search/LssOpt` | with all states expanded the search is A*: a goal on the open list covers each way to a goal | |
| C73 | `Utils/HashBytes`: memory with readable addresses, 32-bit words, the three alignments | each switch adds the same words; reverse functions of `mix` and `final` | little-endian; values published with lookup3.c checked as examples; violated by reads past the end (negation proved) |
| C74 | `Domains/Sliding` (mathematics only), `Domains/TilesSolve` | the permutations that leave the blank in place form a group; it contains all 3-cycles of a square, and of every set put together from squares; sign times colour of the blank's cell is invariant | at least 2 x 2 cells; A* with at most 12 cells |
| C75 | `Domains/TilesGen`: the parity test, the numbers written; shuffles are any sequence of boards | number of inversions against C74 | violated for even width unless square, and for single columns (negations proved) |
| C76 | `Props/PancakeSolve` | largest cake first, then C33 and C67 | A* with at most 12 cakes |
| C77 | `Props/GridSolve`: steps and paths on the map, specified without operators | paths are the plans of the domain; C46 and C67 | exact reals; at most 2^29 cells; start and goal inside the border; weighted A* not for four-way life maps with the goal in the last row |
| C78 | `Search/Bugsy`: the loop of Bugsy and Bugsy_slim over a policy (all code that only affects the order); resorting in place; `Search/BugsyRef` | every run is a run of a best-first search that pops any open node; heap rebuilt bottom-up | any clock, any `double` arithmetic; undefined without `-dlms` (uninitialised variable; negation proved) |
| C79 | the same, exact arithmetic | utilities are minus the weighted `f`; path-max keeps estimates admissible | Bugsy_slim and `-dropdups` are not optimal (witness proved) |
| C80 | constructor of Bugsy | options against a list of meanings | violated: a flag given last is ignored (negation proved) |
| C81 | `Utils/Geom2d` over an ordered field: tolerance tests, boxes, lines, segments | explicit solution of the two line equations; `Utils/Geom2dThms` | exact arithmetic, inputs away from the tolerances; overlapping and nearly parallel segments violate it (negations proved); square root is a parameter with its defining property |
| C82 | the same, polygons as lists of sides | parity of sides hit by the ray with the half-open rule; sweeping the ray along a segment; `Utils/Geom2dPoly` | violated for nearly horizontal sides (negation proved) |
| C83 | the same, `removecolinear` by recursion on the vertices left | shape of a side does not change when a point of it is left out; `Utils/Geom2dMake` | colinearity tested exactly (the code has a tolerance on angles) |
| C84 | `Domains/VisGraph` (`PMap`): `isvisible`, `obstructed`, `min`, `max` | from C82: a segment that is not reported to hit a side meets none, and containment does not change along it | partial: tolerances; `max.y` of the code is wrong (`c84_max_wrong`); lying inside a wall or an obstacle counts as visible |
| C85 | `Domains/VisGraph`: construction of the graph, `add`, `scale`, `translate`; distances are a parameter | induction over the loops with the invariant `Wf` (`foldO_ind`); links characterised by `sees` and sides | partial: links may cross walls near their ends (`c85_wall_missed`); reading from files not modelled |
| C86 | `Domains/VisGraph` (`Nav`, `dom`, `pathcost`, `drawn`) with C67 | triangle inequality, `c67_astar_heap` etc.; `Route` is the specification | over the reals, not doubles; drawing of an empty path is undefined (`c86_no_route`) |
| C87 | `Domains/Plat`: tiles, levels, collisions, bodies, player, over the rationals | invariant `Good` (size, inside, clear of solid tiles, speed bounds, lattice of coordinates) kept by every pixel step (`isect_spec`, `next_spec`, `act_spec`); `Clear` and `Inside` are the specification | exact arithmetic instead of doubles; levels without border: `c87_open_ub` |
| C88 | `Domains/Plat` (`edge` with its assertions) | from the invariant of C87, with speeds ≤ 12 in dry levels and ≤ 12.25 in wet ones | partial: the assertion fails in water (`c88_aborts`) |
| C89 | `Domains/Plat` (`pack`, `unpack`, `Packed.eq`, `ops`, `ident`), hash via C73 | coordinates are multiples of 1/40, so the tolerance does not matter; witnesses by evaluation | partial: reverse operators are wrong, equal states may differ in hash |
| C90 | `Domains/Plat` (`near`, `goal1`) | the assertions of `edge` bound each frame; triangle inequality | partial: only the branch of `hvis` for a goal in sight; the cached lookup in the visibility graph is not modelled |
| C91 | `Domains/Plat` (`read`, `ends`); rows and tiles by the specification `text`, `Row` | induction over rows and places | partial: levels taller than wide are always rejected |
| C92 | `Domains/Grid2Poly` (components, `clockwise`, `poly`, `invert`, `PolyMap(bool[],w,h)`); cells and ways between them by a small specification in `Props/Grid2Poly` | `Domains/Contour`: going round the border of a set of cells is a permutation, so it returns; parity of crossings decides inside and outside (discrete Jordan curve argument); separation of the first component from the others. `Grid2PolyThms`: the loop of the code is that walk and `contains` counts its crossings. `Grid2PolyComps`: components by induction over cells on top of the disjoint sets | partial: bitmaps with a blocked edge; a free cell is unobstructed exactly if it is reachable from the lowest right-most one |
| C93 | `Domains/Pbm` (`rd`, `readpbm`); file format by the grammar `Body` | induction over the grammar and over the text | proved |
| C94 | `Search/Fhat` (fhatlrtastar.hpp, on top of `Search/Lss`), `Search/LssSafe` (local searches in any order, with any heuristic) | each local search is one of LSS-LRTA* with another order; invariants that need neither the order nor the heuristic; with distances 0 it is LSS-LRTA* | violated: parent of a new node read before it is written, learned values can exceed true costs and decrease, reported errors are not means, endless with the one-step option (negations proved); open: termination without the one-step option for other distances |
| C95 | `Domains/GridFile` (`fscanf` formats, `loadRuml`, `loadOctile`, `loadSeed`, `uniform`); drawings by `Rect`, `charAt`, maps by `Shows` | induction over rows and places; suffixes for what is accepted | violated: broken headers are accepted, characters outside of the terrain table are undefined behaviour, octile maps need a final line break |
| C96 | `Domains/GridFile` (`instance'` of main_gridnav.cc, `pick` of randinst.cc) | from C95, C77 and C25 | violated: octile maps read `lifecost` unset, coordinates are not checked, randinst can draw the row after the last one |
| C97 | `Domains/GridFile` (`toBits` of 2poly.cc) with C92 | induction over the loops | violated: only square maps are converted correctly |
| C98 | `Search/DtaTable` (the table of dtastar.hpp: `readData` after parsing, `findExtremes`, `hbin`, `fbin`, `bin`, `norm`); fractions of the samples by `fraction` | induction over the samples | violated: the bins are taken with `max` instead of `min`, so that the table has only 0 and 1 in one bin |
| C99 | `Search/DtaTable` (`decideGo`, the arithmetic of `keepGoing`); the minima meant by `intended`, those used by `seen` | invariants of the nested loops over nodes, depths and values | violated: cached minima forget nodes, conversions of negative and infinite numbers |
| C100 | `Search/Dta` (`Lss`, `Graph`, `step`, `search`), `Search/DtaThms`, `Search/DtaInv`, `Search/DtaStep`, `Search/DtaCount` | invariants of the heap of searches and of each search; counting of expansions; `learn` ends because no node is taken out twice | violated: destroyed and unset memory is read, found goals are left, values above true costs, a failing assertion |
| C101 | `Search/Limits` (`strtoul`, `Limit::Limit`, `memlimit`, `reached`, `start`, `finish`, the signal handler, `getsearch`); the command line as a list of options and other words | induction over the command line; invariant of the timer over all interleavings of calls and signals (`strtod`, `setrlimit` as parameters) | violated: values that are no numbers mean no limit, `finish` of a second search leaves `NULL` to the handler, `timeup` is never taken back |
| C102 | `Search/Limits` (`fromArgs`, `ExpansionLimit`, `MaxTimeLimit`: table, cache, `maxlss`, `start`) | induction over the runs and over the moves | violated: the size chosen takes at least the whole time; numbers are cut to 32 bits; damaged or rounded tables in the cache |
| C103 | `Search/Tight` over the model of A*, weighted A* and greedy search | invariant relating the priorities of closed nodes to those of the open nodes below and not below them; induction over the iterations and over the operators of an expansion | holds; for greedy search without `-dropdups` a witness that it does not |
| C104 | `Search/AstarDump` (`considerkid`, `expand`, `search`, `dumpgoal` of astar-dump.hpp) | the search projects to A*; invariant of the additional fields; C103 makes the depth exact | holds; `d*` is not the least number of operators |
| C105 | `Search/Rrt` (`search`, `reset`, the seed of rrt.hpp) on top of the k-d tree of C12; the samples are a list of points, coordinates exact | invariant of the tree of nodes; the operators still unused at a state decrease when its point is sampled | violated: limits never looked at, start state not tested, `-s` always gives seed 0, `reset` leaves destroyed nodes in the tree; the path, the choice of node and operator, and that suitable samples find a goal are proved |
| C106 | `Search/DtaDump` (`evaluate`, `dfs`, the loop of search/dtastar-dump.hpp); the local searches, learning and moves are those of `Search/Lss` with one step per search; which steps are sampled is any function; `horig` is the heuristic, which is the same if it is consistent | specification of `dfs` by induction on the depth: the table has costs of walks, entries cheaper than the current node do not change; simulation: what is sampled changes no heuristic value, so the search goes where LSS-LRTA* goes | violated: values are infinite if the goal is nearer than the depth or the first operators cost nothing, sampling counts for the limit, the search can be endless; path, attained values, no failing assertion, lower bound for solutions at least as long as the depth, and that sampling without limits changes nothing are proved |
| C107 | `Utils/Double` (finite IEEE numbers as integers of 53 or 24 digits in units of the least one; rounding to nearest, ties to even), `Search/Rounded` (the best-first searches of `Search/BestFirst` with costs of which only monotonicity of addition is used) | the invariant of the search without the priorities; frontier along rounded running sums; rounding is monotonic because it is to the nearest; error of a sum by induction | violated: the update `f - g + g'` drifts, so A* with an exact heuristic is not optimal (`c107_drift`); solutions, completeness, termination, and near-optimality without heuristic are proved |
| C108 | `Domains/Scenario` (scenario.cc: arguments, header, entries, map cache, check, rows, totals; `pathcost` of gridnav.cc; scenario2rdb.cc), on `GridFile` and `GridNav`; reading of `double`s is a parameter | stream extraction on words between white space; the loop over entries by induction with the cache as invariant; with C46 for A* | violated: entries without path abort (`c108_no_path`), malformed entries end the run silently, coordinates unchecked, scenario2rdb shifts fields for `version 1.0` (`c108_rdb_version`), keeps cut-off records, and uses fields as formats |
| C109 | `Domains/VisFile` (`Poly::Poly(FILE*)`, `Poly::output`, `PolyMap::input/output`, `VisGraph(FILE*)`, `Vert`, `Edge` and their `output`, the locations of inst.cc and main.cc), on `GridFile`'s `fscanf`, `Geom2d` and `VisGraph`; `%g`/`%lg` are a parameter with the law `Faithful` | round trip by induction over the lists that are written; making a polygon of a polygon's vertices changes nothing (`make_again`) | violated: lengths and coordinates are rounded independently, so the heuristic is inadmissible (`c109_inadmissible`); missing count of vertices is read uninitialised (`c109_uninit`); tiny polygons cannot be read back (`c109_collapse`); the polygons of vertices are lost (`c109_owner_lost`) |
| C110 | `Rdb/DfTools` (`main` and `dfline` of addattrs.cc, `main` of dfcmplt.cc), on `Datafile` (C26) and `Attrs` (C28); files are their contents, opening/renaming is left out | the scan refines taking keys out of a list, the copy refines `insertPairs`; a prefix of a file is a list of lines and a rest (`prefix_file`) | violated: without a pair in the file the attributes are lost without a word (`c110_lost`); blank lines and pairs without key are undefined (`c110_blank`, `c110_nokey`, `c110_blank_line`); values of one length are cut (`c110_cut_value`), quotes and line ends in values damage the file (`c110_quote`, `c110_newline`), a null character joins lines (`c110_nul`) |
| C111 | `Domains/TrafficFile` (`Traffic(FILE*)`, `Traffic::output`, `GridMap::load`, `GridMap::output` of traffic/, randinst.cc), on `Traffic`, `GridFile`'s `fscanf` and greedy search; the values of `rand()` are given | a file is a list of words (`Words` of C108): induction over the obstacles; the solution of a printed instance comes from the soundness of greedy search (`run_solution`) | violated: an incomplete or foreign line silently ends the obstacles (`c111_cut`), start and goal are not checked (`c111_wrap`), the number of cells wraps (`c111_size`), the generator loops for ever, divides by zero or reads a null pointer for some arguments (`c111_one_cell`, `c111_one_wide`, `c111_args`) |
| C112 | `Utils/RandPoly` (`Poly::random`, `xsortedpts`, `isabove` of geom2d; visnav/rand.cc), on `Utils/Geom2d` and `Utils/Rand`; exact arithmetic, the values of `real()` are given | an upper chain that runs to the right and a lower one that runs to the left: induction over the chains, signs of a linear function; removing straight vertices keeps both claims (`rmcol_simple`) | violated: equal x coordinates are an assertion failure (`c112_same_x`), a point on the base line can give a spike (`c112_spike`); options of the generator are not checked (`c112_radius`, `c112_nverts`), and `-o` leaves the file empty (`c112_outfile`) |
| C113 | `Domains/SegmentsDist` (`Segments::d`), on `Domains/Segments` | king's moves and turns; coordinates modulo 2^32 are a circle, whose distance changes by at most one with every operator, so no fence is needed; a greedy plan if nothing is in the way | violated: beyond 2^31 from the goal it overestimates, and coordinates wrap around where there is no bound (`c113_wrap`) |
| C114 | `Domains/SegmentsFile` (`Segments(FILE*)`, segments/mkinst.cc), on `Utils/Rand`, `Utils/Geom2d`, formats as in `VisFile`; `real()` gives any number of the unit interval, only the last try of a round is modelled | round trip by induction over the segments; range of `integer`, invariant over the rounds | violated: file and generator have different bounds, neither is right (`c114_outside`, `c114_left`, `c114_diagonal`); a comment at the end of the file is an endless loop (`c114_endless`); narrow areas divide by zero (`c114_narrow`); the command line is not modelled |
| C115 | `Domains/Ppm` (gridnav/ppm2grid.cc), on `readline` of `Utils/Datafile` and the scanning of `GridFile`; what is printed before an error is left out | induction over rows and cells; the numbers of the file one place late; loading by C95 | violated: the line with the full brightness is taken for a colour (`c115_image`, `c115_lost`), 255 is always the full brightness (`c115_dim`), an empty line is undefined behaviour (`c115_blank`) |
| C116 | `Domains/SeedInst` (gridnav/mkseedinst.cc), on `uniform` and `instance'` of `GridFile` and the search of `Search/Concrete`; `%f` as in `VisFile` | the search is exact (C67), so the rounds end with the first good seed; reading by computation on the text | violated: the probability is printed with six digits and the map that is read can be another one (`c116_rounded`); a probability above 1 is an endless loop (`c116_endless`) |
| C117 | `Search/Lms` (search/learnh/hlms.cc, leastsquares.cc), rows of the dump of C104's `AstarDump`; numbers are reals, `dgels` is a parameter with the condition `Right` | counting over all sequences of random numbers by induction on the number of records; the matrix by injectivity of the index | violated: the sample is biased towards the first records (`c117_chance`, `c117_biased`); the failure of the solver is ignored, so zeros are printed in domains with unit costs (`c117_unit`). The plot (`spt*`) is not modelled |
| C118 | `Search/BestWt` (search/anyprof/bestwt.cc), on the lines that `dfread` hands out (`Datafile`); numbers of an ordered field, no NaN | invariant on the map (sorted, count and mean per weight), induction on the files; the loop keeps the least mean | violated when no file can be opened (`c118_empty`) and for pairs without key or value (`c118_bare`, `c118_novalue`): out of bounds |
| C119 | `Utils/Eps` (graphics/image.cc, image.hpp: colours, `setpixel`, `encode_epsdata`, the page, `Line`, `Pt`, `Text`, `Arc`, `Poly`), on `Encode`; numbers of an ordered field, printing a parameter | the two PostScript filters are specified (`psRuns`, `a85dec`) and invert the encoders; the page by arithmetic; comments are stripped from the text; strings are read (`psStr`) and the commands after them run (`psRun`) as in the manual | violated: texts whose parentheses do not nest, or with backslashes (`c119_string`, `c119_smiley`), pixels beside the picture (`c119_outside`), margins above half of the page (`c119_margin`), the first line without a page (`c119_header`), `newpath` of a polygon is in a comment (`c119_poly`), polygons without vertices (`c119_novertex`). The drawing window is not modelled |
| C120 | `Search/ProfFile` (search/anyprof/mkprof.cc; `save`, `read` of profile.cc), on `Profile` of C53; printing and reading of numbers are parameters (`Fmt.Good`) | induction on the lines and on the words; the monitor of C53 | violated: the ranges are saved with six digits, and a monitor of the profile that was read may never stop (`c120_rounded`); short rows (`c120_short`) and messages without argument (`c120_cut2`) are undefined |
| C121 | `Utils/Status` (utils/mem.cc `virtmem`); the file is a text, `fgets` with its buffer, `strtoul` | induction on the length of a line, which is read in pieces; digits by induction | violated: the field is looked for anywhere in a line, and the name of the process comes first (`c121_name`); a file that cannot be opened is read (`c121_open`) |
| C122 | `Utils/Status` (utils/fatal.cc); formatting by `vsnprintf` is not modelled, only the cut | lengths of lists | violated: messages are cut at 255 characters (`c122_message`, `c122_reason`), so that the reason may be lost (`c122_lost`) |

No property is "not applicable". A property whose statement is false for the code has its negation proved with a
concrete witness, a `_partial` theorem for the part that holds, and status `partial`.

## Findings

Places where the code does not do what a user would expect. Each is a theorem unless marked (reading).

Data structures
* `Htable::rm` does not unlink an element that is not first in its bucket (`c05_rm_keeps_element`, `c05_rm_witness`).
* `Intpq::clear`, the bucket open list and the heap open list leave members marked after `clear` (`c07_clear_stale`,
  `c10_clear_stale`, `c10_heap_clear_stale`).
* `BinHeap::update` checks the index after a cast to 32 bits (`c02_update_cast_ub`).
* `Djset::clear` of a root leaves the other members attached (`c54_clear_witness`).
* `Stn::After` builds the constraint of `Before` (`c56_after_is_before`).
* `Pool` with block size 0, a closed list without buckets: undefined (`c11_zero_blksz_ub`, `c03_zero_buckets_ub`).

Utilities
* Control strings lose values from 128 on (`c21_witness`).
* `ilog2` is one more than documented, `fallfact(x,0)` is `x` (`c23_*`).
* `safe::sub`, `safe::mul` have wrong checks (`c24_sub_ub`, `c24_mul_ub`, `c24_subU_wrong`).
* Seeding the generator with its constant gives the dead zero state (`c25_seed`).
* Data file pairs of exactly 256 bytes lose a byte; a blank line is undefined behaviour in the reader
  (`c26_boundary`, `c26_blank_line`).
* `pathcat` with an empty directory and every `pathcatn` call are undefined; `ensuredir` is silent if a file is in the
  way (`c27_pathcat_empty`, `c27_pathcatn`, `c27_ensuredir_file`).
* `RdbAttrs::lookup` inserts missing keys; an argument `=v` is undefined behaviour (`c28_lookup_inserts`,
  `c28_args_ub`).
* Data base: value `UNSPECIFIED` makes paths collide, a path may be a directory or blocked by a file, queries return
  files without the attributes, a query for `.` and `pathattrs` below `.` or `/` never return (`c61_unspecified`,
  `c61_taken`, `c61_blocked`, `c62_unsound`, `c62_dot`, `c63_loops`).
* `hashbytes` reads up to three bytes past the end of an aligned key (`c73_overread`).
* `Ranker`'s destructor uses `delete` on an array (reading).

Searches
* A*, rounding: `f` of a node reached more cheaply is updated by `f - g + g'` (astar.hpp:133; also wastar.hpp:141-142), so
  that a first, very expensive `g` spoils `f` for good: A* with an exact heuristic returns a path that is not cheapest
  (`c107_drift`).
* IDA* never returns on unsolvable problems (`c34_never_reports`). Weighted A* with `-dropdups` is not bounded for
  inconsistent heuristics (`c35_dropdups_unbounded`).
* ARA* shares one link field between two hash tables, can print the bound 0, and prints "converged" when cut off at
  weight 1 (`c38_bound_zero`, `c38_converged_cut`).
* Bugsy reads an uninitialised variable in every search without `-dlms`, and another one with `-hhat` but without
  `-interph`; a flag that is the last argument is ignored; Bugsy_slim is not optimal even with all weight on cost
  (`c78_uninitialised`, `c80_last_flag`, `c79_slim_not_optimal`). `Bugsy_slim::reset` empties the closed list before it
  walks through it to destroy the nodes (reading).
* The stopping policy is not optimal for negative time weights (`c53_negative_weight`).
* RTA* uses the stored value of the initial state as scratch space: the search may go to and fro for ever
  (`c65_alias`, `c66_incomplete`); `reset` keeps the old result (`c64_second_search`).
* A negative heuristic is undefined behaviour with the bucketed open list (`c67_bucket_negative`).
* Beam search uses an uninitialised width if none is given (`c68_no_width`). Without `-dropdups` it keeps the positions of
  dropped nodes: reaching one again fails an assertion or silently loses a node (`c68_stale_*`, `c68_lost_*`).
* LSS-LRTA* with `-onestep` can run for ever on a solvable problem with a consistent heuristic: when a goal is in sight
  nothing is learned, the one step leads to a state from which the lookahead does not see the goal, and the step from there
  leads back (`c71_onestep_endless`).
* LSS-LRTA* never reports an unsolvable problem; in a dead end it fails an assertion or, with `-complete`, reads the
  front of an empty heap (`c71_unsolvable`, `c71_unsolvable_fails`, `c71_dead_end`). Its node tables are never given the
  domain, so hashing a packed state that needs the domain (dock robot) uses an uninitialised pointer (reading).

Domains
* Pancake and tiles instances are not validated (`c44_unvalidated`, `c57_wrong_size_accepted`, `c57_position_ub`).
* The tile puzzle generator divides by the height where it needs the width. With even width and odd height it refuses the
  goal itself and writes unsolvable instances (`c75_goal_refused`, `c75_opposite`, `c75_unsolvable_written`). Boards of 4 by 2
  (`c75_wide_refused`) and single columns (`c75_column_accepted`) are judged wrongly too; `c75_even` says exactly when. Its file name buffer of 100 bytes overflows for long directories (reading).
* Sparse pattern database indices collide for 9 tiles of the 15-puzzle (`c58_collision`).
* Grid navigation: wrong reverse costs on life maps (`c45_life_revcost_wrong`).
* Vacuum: the heuristic is undefined on goals and inconsistent (`c47_goal_ub`, `c48_inconsistent`).
* Traffic: division by zero on narrow grids, inadmissible heuristic (`c49_one_wide_ub`, `c50_not_admissible`).
* Dock robot: piles of instance files are not sorted, so undoing fails (`c51_unsorted_violated`).
* Segments: two of the four bounds are swapped into diagonals (`c52_bounds_swapped`, `c52_bounds_diagonal`), rotations
  are not validated (`c52_unvalidated`).

Geometry
* A segment inside a parallel one is not hit, and `hits` is not symmetric (`c81_overlap_missed`); a crossing of two long,
  nearly parallel segments is missed (`c81_crossing_missed`).
* `Poly::contains` says yes for points outside the bounding box of a polygon with nearly horizontal sides
  (`c82_flat_wrong`).
* Equal points, and a polygon file with no vertices, are undefined behaviour (`c83_undefined`); three colinear points make
  a polygon with two vertices (`c83_two_vertices`).
* Visibility maps: `PolyMap::max` compares with `min.y` (`c84_max_wrong`); two points inside the same obstacle see each
  other (`c84_inside_polygon`).
* Visibility graphs: a wall within the first or last thousandth of a line of sight is missed (`c85_wall_missed`); some sides
  are linked twice (`c85_twice`); the comparison of operators uses "or" but this never matters (`c86_eqv`); an unsolvable
  problem makes the program read the first element of an empty vector (`c86_no_route`).
* Maps from bitmaps: rooms other than the one of the lowest right-most free cell become obstructed (`c92_room_lost`); a
  bitmap without free cells becomes free (`c92_full`); if the edge of the bitmap is not blocked the bound can be a square
  outside of the bitmap (`c92_open`) or the construction goes on for ever, taking more and more memory (`c92_endless`);
  without rows it divides by zero (`c92_no_rows`), and so does the reader of bitmap files without columns (`c93_total`).
* Platform game: levels taller than wide are always rejected, because `plat2d.cc:29` compares the column with the height
  (`c91_tall_rejected`); the greatest speed is exceeded after an odd number of frames in water and the search aborts
  (`c88_aborts`); the reverse operator does not lead back next to a wall (`c89_revop_wrong`); states that compare equal can
  have different hash values (`c89_hash_wrong`, `c89_eq_not_trans`); levels without walls around them are undefined
  behaviour (`c87_open_ub`).
* DTA*, table: `hbin` and `fbin` (dtastar.hpp) take the maximum of the value and the greatest one, so that all samples go into the
  same bin (`c98_table`, `c98_wrong`); samples whose greatest `h` is in a bin above the greatest `f` abort (`c98_abort`).
* DTA*, decision: `fbin` of infinity is converted to `unsigned int` before the loop can stop (`c99_infinite`); `f - g` can be
  negative (`c99_negative`); a second action that is a dead end has an infinite value (`c99_dead_end`); the minima are cached
  without the nodes that came before a value of `f` was in the range (`c99_cache`).
* DTA*, search: `cur->state` is read after `graph.clear()` (dtastar.hpp:533, 543, `c100_dangling`); `avgmeta` is set by `reset` only
  (580, `c100_uninit`); a state without operators takes the front of an empty heap (`c100_dead_end`); `fg` forgets a closed goal while
  there are open nodes, so that the step can lead away from it (`c100_walks_away`, `c100_detour`); learned values exceed true costs
  (`c100_overestimate`, also because of the factor 1.10 in 590), after which an assertion can fail (264, `c100_goal_assert`).
* f̂-LRTA*: `kid->parent` of a new node is read before it is written (fhatlrtastar.hpp:333, `c94_uninit`); a node that is
  expanded and then put back into the open list is counted twice by the learning, which stops too early, so that learned values
  exceed the true cost (`c94_overestimate`) and can decrease (`c94_decrease`); the mean errors are divided by one more than
  the number of expansions (`c94_mean`); with `-onestep` it can pace for ever (`c94_onestep_endless`).
* Grid map files: `fscanf` of a word gives 0 also if the word does not match, so broken headers are accepted (`c95_lenient`);
  octile maps are refused without a final line break (`c95_octile_last`) and unknown characters read an uninitialised table
  (`c95_octile_chars`); `lifecost` is never set for octile maps but gridnav reads it (`c96_octile`); coordinates are not
  checked (`c96_coordinates`); randinst reads beyond the map for some seeds (`c96_randinst_ub`).
* 2poly.cc uses the width instead of the height: maps wider than high are written beyond the array (`c97_wide`), maps higher
  than wide become wrong bitmaps (`c97_tall`).
* Scenario files: an entry without a path fails an assertion instead of being accepted with cost -1 (`c108_no_path`); an entry
  that is no entry silently ends the run (`c108_malformed`); sizes and coordinates are not checked (`c108_outside`); scenario2rdb
  reads `version 1.0` as 1 followed by the word `.0`, so that all fields are shifted (`c108_rdb_version`), writes cut-off records
  (`c108_rdb_cut`) and takes the fields for formats (`c108_rdb_percent`).
* Files of visibility graphs: `%g` rounds coordinates and lengths independently, so that the straight line can be longer than a way
  in the graph that was read (`c109_inadmissible`), and a location can be written inside of an obstacle (`c109_moved`); a polygon whose
  vertices are rounded to one point, or that has no vertices, is undefined behaviour when read (`c109_collapse`,
  `c109_empty_polygon`); something other than a number after the map leaves the count of vertices unset (`c109_uninit`); two blanks
  after `bound:` and the bound is not seen (`c109_bound_spaces`); the polygons that the vertices belong to are not written
  (`c109_owner_lost`).
* Tools for data files: `addattrs` writes the attributes before the first `#pair` line only: a file without one stays as it is and the attributes are
  lost without a message (`c110_lost`).  Both tools read with `readline`, so a blank line is undefined (`c110_blank`,
  `c110_blank_line`); `cols[1]` of a `#pair` line without key is undefined (`c110_nokey`).  `fputs` of a line with a null character loses
  its line end (`c110_nul`).  Values are not escaped (`c110_quote`, `c110_newline`) and `dfpair` cuts one length (`c110_cut_value`).
* Traffic instances: a line that is not an obstacle ends the obstacles without a message (`c111_cut`); a start beyond the side of the grid is
  taken for one in a lower row, and one below the grid is only noticed by an assertion (`c111_wrap`); `w * h` is not checked
  (`c111_size`).  `randinst` checks for three arguments but uses four (`c111_args`), divides by `width - 1` (`c111_one_wide`), and takes an empty
  list of operators for `no solution`, so that it never ends on a grid of one cell (`c111_one_cell`).
* Random polygons: two points with the same x coordinate end the program (`c112_same_x`); a point on the line through the first and the last can
  give a polygon with a spike (`c112_spike`).  The generator of maps writes to standard output when it is asked to write to a file (`c112_outfile`),
  fails an assertion if the radii reach a half or are all the same (`c112_radius`), and divides by zero for at most two vertices (`c112_nverts`).
* Segments, number of operators: moving a segment left of column 0 (there is no such bound in instances made from values) makes the estimate jump by
  2^32 (`c113_wrap`).
* Segments files: the generator keeps segments off the diagonal of the area (`c114_diagonal`) but not off its left side (`c114_left`); its instances lie
  outside the area of the reader unless width and height are the same (`c114_outside`).  A file that ends in a comment is never read to the end
  (`c114_endless`).  The generator divides by zero if the area is one short of twice the radius (`c114_narrow`).
* ppm2grid: the line of the image with the full brightness is never read, so that every colour is one number late: a cell is free only if the pixel before it is
  white too (`c115_image`).  An image of one black and one white pixel has no free cell (`c115_lost`).
* mkseedinst: the printed probability has six digits; the solver may draw another map and reject the instance (`c116_rounded`).
* hlms: `randgen.integer(0, t)` has `t + 1` values when it should have `t`, so the first records are in the sample more often than the others (`c117_chance`); the result of `leastsquares` is ignored, so `0,0,0,0` is printed when the columns are dependent, as when h = d (`c117_unit`); short path rows are out of bounds (`c117_short`).
* bestwt: with no file the first entry of an empty map is dereferenced (`c118_empty`); bare pairs are out of bounds (`c118_bare`, `c118_novalue`). Both `hlms` and `bestwt` check `argc < 2` and then use `argv[3]`.
* image: the text of a label is printed between parentheses without escapes (`c119_smiley`); the first line of a picture without a page is `%%!PS`, printed by `fputs` (`c119_header`); `newpath` of a polygon follows a comment without an end of line (`c119_poly`); a margin of more than half of the page wraps (`c119_margin`); `setpixel` does not check its arguments (`c119_outside`).
* profile files: `%g` rounds the least cost; if it is rounded up, the monitor of the saved profile never stops at the least cost (`c120_rounded`); two messages have a `%u` without argument (`c120_cut2`); short rows are out of bounds (`c120_short`).
* memory: `virtmem` finds `VmPeak:` anywhere in a line, also in the name of the process, and then writes through `NULL` (`c121_name`); the result of `fopen` is not checked (`c121_open`).
* messages: `fatalx` and `warnx` cut twice at 255 characters; with a long path the reason is lost (`c122_lost`).
* Limits on the command line: a value that is no number is 0, which means no limit, and a forgotten value takes the next option for it
  (`c101_no_number`, `c101_swallowed`); `-mem -1` is undefined behaviour (`c101_memory_ub`); a search that calls `finish` while
  another one is timed clears `timed`, and the handler writes through `NULL` (`c101_timer_null`); a search object that ran out
  of time once stops at once when it is reset and used again (`c101_flag_stays`, `c101_stopped`); the platform game without
  arguments compares `NULL` (`c101_plat_no_name`).
* Look-ahead: `-lookahead` is cut to 32 bits (`c102_cut`) and the test for a number never fails (`c102_not_a_number`); the dynamic
  look-ahead returns a size that needs at least the time that is left, not one that fits (`c102_overruns`); a cached table
  with no entries is undefined behaviour (`c102_empty`), one that ends early is mixed into the new one (`c102_stale`), and
  times below a microsecond are rounded (`c102_rounding`); a move of cost 3/2 gives less time than one of cost 1
  (`c102_not_monotone`).

## Parts of the code without a model

search: flrtastar, restartingsearch, optional, learnh;
domains: of plat2d the heuristic for goals out of sight and drawing, of visnav drawing; utils: image, time, and of geom2d: angles, arcs, random polygons, gift wrapping; all of graphics, the `watch`/`draw` programs, generators of instances other than those of tiles and of gridnav/randinst, and `main` programs other than the reading of instances by gridnav.

## Axioms

`#print axioms` on every theorem named in `MANIFEST.json` reports a subset of `propext`, `Classical.choice`,
`Quot.sound`. `vcheck` repeats this check on the committed state.

## Mutation testing

`seeded/LOG.jsonl` has one line per wrong program: the model definition, the edit, the claim that becomes false, the
theorems that no longer check, and the theorems that were tightened because of it. The runs are made in a scratch copy.
A line with an empty list of failed theorems was a gap in the statements (its `tightened` field says what closed it,
and a later line repeats the edit) or a control edit that breaks no claim (its `note` says so).
