# Formal model of plcurve: design

Code base: designbynumbers/plcurve, sources in /repo/src (C). Prover: Lean 4.33.0,
Mathlib modules imported one at a time.

## Trusted base

* Lean's kernel. Axioms: at most `propext`, `Classical.choice`, `Quot.sound`
  (checked with `#print axioms`). No axiom is added; no `sorry`, `admit`,
  `native_decide` or `bv_decide`.
* The reading of the C code. Every model definition cites file and lines in /repo.
  The C code is not compiled or run here, so the tie between model and code is that
  reading.
* External functions are parameters with the contract the C standard gives them:
  `qsort` is *any* function returning a sorted permutation when the comparison is
  consistent (so no tie-breaking order is assumed), `malloc` never fails, `bsearch`
  is *any* function returning an index of a matching element when there is one in a
  sorted array, the random generator is *any* sequence of values.

## Conventions of the model

* `unsigned int` indices are `Nat`. Wrap-around is modelled only where a property is
  about it; elsewhere the comment says which values are assumed to be below 2^32
  (2^31 where the code subtracts and casts to `int`).
* C buffers are lists; a read or write outside the list is the outcome
  `Fault.ub`; a failed `assert` / `exit(1)` is `Fault.die`. So "no undefined
  behaviour" is part of every theorem whose conclusion is `= .ok ...`.
* Memory management (free, double free, leaks), printing, and the verbose modes of
  the checkers (which call `exit(1)` with a message) are not modelled.
* A `qsort` whose comparison can itself fail is modelled by `sortR`: if comparing any
  two different positions could fail, sorting fails.
* Judy arrays (pd_storage.c) are ordered maps. `memcmp`'d vectors in constraints are an
  arbitrary type with decidable equality. `printf`/`scanf` are modelled on the token
  and character level used by the formats in the code (`Model/Io.lean`,
  `Model/KnotTheory.lean`); locale and I/O errors are not.
* Hash strings are lists of characters up to the terminating zero.
* Asserts are active. Where an assertion has a side effect (pd_compperms_ok sorts its
  argument, pd_isomorphisms.c 1531) the model has the effect.
* Floating point is not modelled; where a function's logic is algebraic it is
  modelled over an ordered field and the comment says so.

## Layout

* `lean/Verif/Model/*.lean`   the model, function by function, with citations
* `lean/Verif/Spec/*.lean`    small independent specifications
* `lean/Verif/Proofs/*.lean`  helper lemmas
* `lean/Verif/Props/*.lean`   one theorem (or a few) per property, with examples

## Properties

For each: what is modelled / how it is proved.

| id | plan |
|----|------|
| C01 | bit list <-> words as lists of `BitVec 32`/Nat words; induction on the bit list in chunks of 32 |
| C02 | width as least w with 2n <= 2^w; encode/decode of Nat bits; induction on width |
| C03 | encode a crossing as bits, decode with the same state-passing as the code; induction over crossings; invariant "the edges seen so far have exactly the decoded ends" |
| C04 | negation with concrete witness, partial theorem for what survives |
| C05 | table lookup for n<=6 (the table copied from the header, checked whole by kernel evaluation) and next-lexicographic for n>6; proof that next-lex is the successor in lexicographic order, hence enumeration |
| C06 | maps as lists; list-level composition; period by pigeonhole / order of the permutation |
| C07 | checker modelled loop by loop; equivalence to `Perm (range n)` |
| C08, C09, C10 | closed form of the k-th iterate by induction |
| C11 | negations by witness (the checkers accept a non-rotation); partial: everything the iterators produce is accepted; accepted maps are bijections |
| C12 | generic odometer over abstract cyclic iterators; mixed radix numeral argument |
| C13 | refinement to a list; capacity invariant |
| C14 | refinement to a finite set |
| C15 | loop model against filter specification |
| C16 | each comparator equals a lexicographic order |
| C17 | finite rotations of four values; case analysis |
| C18 | any `qsort`; renumbering by the sorting permutation |
| C19 | two-ended search plus orientation walk |
| C20 | direct from the consistency invariant |
| C21, C22 | orbits of a permutation of a finite set, visited by the marking loop |
| C23 | checker loops against an independent consistency predicate |
| C24 | minimum over the list of rotations |
| C25 | finite table |
| C26 | case analysis over in/out positions and signs, lifted to all diagrams |
| C27 | double counting over crossings |
| C28 | parity of adjacent swaps in bubble sort = interlacement |
| C29 | involution on edge maps / signs |
| C30 | list-level composition |
| C31 | loop model against "is a rotation" |
| C32 | search = filter over crossings; any `bsearch` |
| C33, C34 | store = map from hash to map from uid to packed diagram; invariant over histories; parameterised by the equivalence |
| C35 | flood fill = reachability |
| C36 | consistency invariant preserved |
| C37 | doubly linked list insertion refined to list insertion; any choice stream |
| C38 | over an ordered field |
| C39 | 64-bit words as `BitVec 64`; explicit inverse of the transition |
| C40 | token stream model |
| C41 | first pass modelled; two-edge fix-ups: negation by witness |
| C42 | case table of positions |
| C43 | counting occurrences, for all sizes |
| C44 | constraint list refined to a partial map from (component, vertex) |
| C45 | prefix sums |
| C46, C47 | any `qsort`; coefficient function |
| C48 | chords as pairs; non-crossing by induction; random stream arbitrary |
| C49 | composition of C17-C22; a renaming of edges and crossings is carried through; the bound on components comes from the homology argument below |
| C50 | the hash is a function of data shown equal for diagrams with the same shadow; places and faces correspond |
| C51 | each checker against an independent predicate, both directions |
| C52 | component permutations, edge maps, crossing maps and face maps enumerated by C05, C08, C12, C32; orders on isomorphisms composed from C16 |
| C53 | each loop of the checker decides one field of the specification `IsoMaps` |
| C54 | the loops of C52 with positive directions; isotopies as maps of places (crossing, position), from which maps of components follow |
| C55 | the list is the one of C52 with reflections filtered out |
| C56 | on a diagram as pd_regenerate leaves it every step finds its result in place: crossings are turned and sorted, the first unused edge starts each component, edge numbers agree with the order of components, the face list is determined by its set of sides |
| C57 | C03 and C04, then C56 for the final pd_regenerate, C50 for the hash, C51 for the assertion |
| C58 | C33 and C34 with the functions of C52, C54 and C57 put in |
| C59 | C40 for each element; the elements in their order, inserted into an empty store, rebuild its array entry by entry |
| C60 | as C59 for each group; the new header has 80 characters for all totals, the old one 81; reading a diagram consumes at least one character |
| C61 | pd_overstrand_pos by C26; the faces of a plane diagram give a chessboard colouring by exactness (C28), so alternation is a condition on differences of signs, constant on the connected diagram |
| C62 | induction over the faces; uniqueness from the sides being listed once (C27) and no edge twice on a face (planarity) |
| C63 | C36 for the surgery; planarity by counting cycles of the face permutation: the diagram without the loop is the first-return map, and the loop adds one cycle; pd_ok by C51 |
| C64 | the renumbering tables are a permutation (scatter lemmas); the records before regeneration are a renaming of the two diagrams side by side with two heads exchanged; exchanging the values of a permutation at two points of different cycles merges them, which gives faces (planarity) and components; then C49, C50, C51 |
| C65 | the twelve ends written are different places and ends, so the records stay consistent; faces: the face permutation with two values exchanged (which splits the common face) is the first-return map of the new one, whose only other cycle is the bigon; strands: first-return map on edges; then as C64 |
| C66 | ends of edges move by an involution of places which commutes with going straight on, so strands are the same edge by edge; faces: away from the triangle the new face permutation returns as the old one does, and the triangle is one cycle in both; the twelve ends written are twelve different places and ends; then as C65 |
| C67 | text in characters, numbers abstract (print, scan, laws on both); writer as function to a text, reader as parser with file position, `strtok`/`strstr`/`sscanf` buffers and the growing table; what each part of the reader makes of what the writer has printed, with any rest behind it, then the parts put together; constraint lists by the function vertex -> constraint (C44) |
| C68 | components as a list, constraints by the function vertex -> constraint (C44); writing outside the table of plc_write by an invariant on the lengths of its rows |
| C69 | numbers abstract, the arithmetic of mpsverts a parameter; new constraints are always set behind all others, so the list is described by its answers; colour loop with buffer accesses checked |
| C70 | the records after compaction and sewing are the old ones with two crossings bypassed (`Erased`), so strands are first-return maps and one less circle never appears; faces: a function constant on faces that jumps exactly across the edges between the crossings exists by Euler's formula, and it decides whether the outer faces agree, which is the case iff the two sides are connected by the two crossings only; in the separated case the marking loop is a connected-component search whose invariant is that everything marked lies on one side; each child is then the side with the other strands bypassed; signs: corners of the bigon |
| C71 | induction on the number of crossings with C63 for each round; a face with one edge is a side followed by itself, which is a loop, and conversely |
| C72 | linking numbers by C27; crossings that stay have the same sign and the same components at their places (membership along a strand is constant); a loop is on one component; the two crossings of two strands on different components have opposite signs, by the colouring of C70; on one side of a separated diagram nothing of the other side is met |
| C73 | labels by C35; the components picked are those with all edges in the piece; taken edges in order of components, crossings as every fourth of the sorted ends (each crossing of the piece met four times): erasure of the rest of the diagram with nothing sewn (`Erased … []`); faces of the piece correspond to faces of the child, so the child is plane; then regeneration as in C71; counts by summing over labels |
| C74 | the sorted strands are strictly increasing, so the binary search finds the strand it looks for; the table of edges lists every strand once as head and once as tail; every place of a crossing is written once; the records satisfy a description (`Draws`) which determines the diagram up to edge numbers, so planarity carries over from any drawing; then C49/C51; components of the diagram are orbits of going on, matched with components of the list by counting. Parameters are in any linear order; `near` stands for the tolerance |
| C75 | over the real numbers, with the tolerances of the code and π for its constant: the law of sines in locate_crossing is turned into a quotient of areas by sine and cosine of the arguments of two complex numbers, so the two fractions solve the linear equations of the crossing; the sides decide that they are inside; pairs of edges visited are exactly the pairs without common vertex, each once; a pair which is no trouble and not listed is separated by one of its lines. With C74 for the diagram. Rounding is not modelled; thickness (octrope) and random vectors are parameters |
| C76 | over the real and complex numbers: Gram-Schmidt makes a unitary pair (or a division by 0, outcome `nan`, only if the vectors are dependent); the Hopf map sends (a, b) to an edge of length \|a\|² + \|b\|², and the sum of the edges is made of \|A\|² - \|B\|² and ⟨A, B⟩. Random numbers are parameters; rounding is not modelled |
| C77 | over the reals: the moving frame (unit normal, perpendicular to the last vertex) is an invariant of the loop; the law of cosines gives the unit edge, the rotated normal gives the dihedral angle. Rejection sampling over a stream of random numbers; undefined results are the outcome `ub`, shown not to happen |
| C78 | as C77, with the distances to all earlier vertices kept as an invariant of the trial; trials over a stream of random numbers. plc_is_sap as it is written: the `return false` is inside of `if (verbose)` |
| C79 | the transition is linear over the field of two elements; its powers are polynomials modulo the characteristic polynomial, which is checked to give zero on all states by running it on a basis. The powers x^(2^n) are a table of 257 entries, every one checked by the kernel to be the square of the one before, the last being x; for each prime factor q of 2^256 - 1 (primality by Lucas certificates) x^((2^256-1)/q) - 1 is shown invertible by an explicit inverse. The jump polynomial is the entry for 2^128 |
| C80 | over the real numbers, with the tolerances of the code. A rotation is specified by what stays (distance along the axis), the size and sense of the angle (dot and cross products of the parts normal to the axis), not by a formula; for folds, translation and scaling the effect on lengths and constraints |
| C81 | nearest points are specified against all allowed points; the constraints as sets of points. The loops by induction over the list of constraints and the vertices of each; that constraints do not overlap (from C68 and before: the list is sorted and disjoint) is used for the repair |
| C82 | over the real numbers. The loops read `vt[-1]` to `vt[nv]` as plc_fix_wrap leaves them; lengths are sums over lists of vertices, the shorter arc is the minimum over both lists; the radius of gyration is compared with the double sum over all pairs; angles by cosine and range, curvature by the half angle formula |
| C83 | on the curves of C67 and C68, with colours and wrap-around vertices; every branch reads and writes the buffer of nv + 2 vertices. The result is compared, as a list of polygons, with the list in which the old polygon is replaced by its pieces |
| C84 | buffers as lists of real vectors with an address, the cached data as a value, qsort as any sort; the two scans by induction with the invariant that no point passed is nearer than the best so far. Histories of calls are an inductive predicate |
| C85 | over the real numbers; the in-place compaction of the list as array operations, shown to keep exactly the entries within the bound (up to order); the quotient in the code is 1/(2 tan(t/2)) by half-angle formulas and the identity of Lagrange |
| C86 | over the real numbers, long double the same as double; optimality conditions of the convex quadratic on the square, shown to hold for the clamped parameters and to imply that no other pair is closer; for nearly parallel edges a bound by the distance of a point to the other line |
| C87 | over the real numbers; the octree and the list of edges are given and satisfy a specification (every box holds its edges, the boxes inside it split its edges). The search over boxes is shown equal to offering every pair of edges in turn to the list; pruned boxes hold only pairs whose offer changes nothing. Then the list with its compaction is shown to keep all offers within the bound, and each pair of edges to be accepted if and only if the points found are a strut. Struts between parallel edges are sound, but not all of them need be found |
| C88 | the sort is written once over an arbitrary order (the C macro or copies differ only in the key compared); array accesses outside of the array are faults. Induction on the number of calls, with the invariants of the partition: everything before the left end is not above the pivot, everything after the right end is not below it; a range keeps its elements |
| C89 | memory is always there; boxes are numbered in order of allocation; the table bin_to_oct is modelled by the function it tabulates (its 1024 entries were compared by a script). Invariant of the swath: the open box on each level starts where its tag prefix started, closed boxes inside it follow one another and the next one is still open; closing boxes up to the level where the tag changes and opening new ones below keeps it. Tags fit their words; sorted by tag (C88), equal prefixes are adjacent |
| C90 | over the real numbers, with the angles of Mathlib (triangle inequality of angles): if an arc from direction A to direction B turns by less than pi, every direction on the way has a positive product with A/|A| + B/|B|, hence so has the chord; but the chord of a strut has a product of at most 0 with both A and B |
| C91 | over the real numbers; pointers that may be NULL are flags, results not written are none, reading one that is not initialised is a fault. All calls of octrope_struts for a curve offer the same pairs of edges, so the shortest length does not depend on cutoff and room once something is listed; otherwise it is computed again with DBL_MAX. Radius from C85, length from C82 |
| C92 | over the real numbers; one loop for curves and buffers with a getter and a setter. The spec is an action of a group on space and on vertices; invariant: vertices of finished orbits have their final place, the others the original one. The mean is symmetric since multiplication permutes the group; least squares by orthogonality of the mean |
| C93 | nearest vertices from C84. If errors are at most d and vertices more than 3d apart, the target of a product is the product of the targets, so the n symmetries act; rotations add by Rodrigues' formula |
| C94 | over the real numbers, with a proper triangulation as an inductive tree (the vertices and chords behind a chord). Induction over the tree: the vertices behind a chord are placed with the right distances, nothing else is touched, and every step is a rotation of the normal around the chord; the angles computed are then those of the steps. The recursion is cut off at the number of triangles, which is never reached for trees |
| C95 | vertices are counted from 1 on, so that a non-crossing system is one of intervals; if the intervals inside one are as many as possible, the last chord from its beginning and the first chord to its end meet (counting). The table at a vertex is sorted by the distance of the other end, so that the neighbours of a chord in it are these two. Induction over the length of the interval: the triangles built are a tree behind the chord, whatever is built later. The check: every triangle of a tree is the daughter of at most one, by the number of its parent chord |
| C96 | the recursion over triangles is a fold over a list with every triangle once; each inequality cuts the interval by exactly the numbers which violate it; 0 is in the interval if the inequalities hold before; moving along the direction changes the slack linearly. The folded triangle has distances 0 and 1 only. Induction over the steps of the chain; with the fan and C94, every diagonal is the distance of a vertex from the first one |
| C97 | the edge vectors of a closed polygon sum to 0 (telescoping), and so do permuted ones; partial sums give a polygon with exactly these edges, the closing one included. The dihedral angles are computed for every polygon (induction over the tree of triangles); triangle inequalities by C96 |
| C98 | the Crout loops are followed column by column, through all choices of pivot, to the nine equations of the factorization; a pivot of 0 would make the determinant 0. The substitutions then give a solution, unique by Cramer. That singular matrices are not reported is proved for all of them |
| C99 | invariant of geyer_ips_add over all samples: what the data buffer, the circular buffer, the overlap and the lagged products hold, in terms of all samples so far; the lagged product of N + u samples splits into old, new and straddling pairs. The correction for the mean is an identity of sums. gamma_0 + gamma_1 is not negative (induction), so the loop of geyer_ips_value takes the same initial sequence as the direct one |
| C100 | the elimination keeps all factors between -1 and 0 (induction), so every divisor is above 1/2; forward and back substitution together solve the tridiagonal system, which is the equality of the first derivatives at the vertices. Both searches keep a bracket (invariants). Derivatives are Mathlib derivatives of the evaluated polynomials |
| C101 | a diagram with holes is a function from places to edge numbers and a list of edge records that agree where they are set; taking out a strand is described independently of the code as a relation of four cases (through, entering, leaving, nothing) and shown to keep agreement; one turn of the loop is shown to take out its strand, although the places it has dealt with keep stale numbers until the end, so the second turn is related to a diagram in which they are already empty. Refuted (negations proved) for small loops, loose tails, and edges with loose ends |
| C102 | the printing functions as sequences of strcat into a buffer of given size; the length of each monomial is bounded and the text is shown to be readable from the left: a number ends at a character that is no digit, what follows a monomial is the end or a space, and the parts left out are recognized by the next character |
| C103 | the reader character by character, with the loops over positions as flags; induction over the numbers of a row, then over the rows, with the text written by an independent description of the format |
| C104 | the text of the writer is shown to be that of rows in the format of C103, by induction over the monomials of a line (placeholders between powers of l, fake monomials so that l^0 is reached) and over the lines (placeholders between powers of m); then C103 applies |
| C105 | the text is cut at the signs + (as strtok does), each part scanned as by sscanf; induction over the monomials. Partial because the full claim is false: the result is written beyond its allocation; proved for an allocator that gives 16 bytes where 8 are asked for |
| C106 | memory as numbered blocks with sizes, loops by recursion; an invariant of the loop that fills a vector, sums over ranges, Lagrange's identity by induction for the angle. Partial because the full claim is false for nplc_sq_dist and nplc_vmadd |

## What is modelled, and what is not

| source file | modelled | not modelled |
|---|---|---|
| pdcode.c | pd_code_new (sizes), canonorder_cross/face, regenerate_crossings/edges/comps/faces/hash, pd_regenerate, cross_ok, edges_ok, comps_ok, faces_ok, pd_ok, pd_next/previous_edge, reorient/renumber_component, component_and_pos, overstrand/understrand, build_cross, linking numbers, pd_write/pd_read, KnotTheory read/write, canonicalorder, base64, is_alternating, face_and_pos, edge_on_face, copy, copy_newsize | printing, write_c, pd_read_err messages |
| pd_perm.c, pd_permdata.h, pd_dihedral.c, pd_cyclic.c, pd_orientation.c, pd_multidx.c | all iterator functions, checkers, comparators, the table | print/copy/free |
| pd_isomorphisms.c | edge maps, crossing maps, face maps, component permutations, pd_build_isos, pd_isomorphic, pd_iso_consistent, pd_iso_ok, pd_iso_cmp, cyclic buffer equality, diagram isotopies, map isomorphisms | printing |
| pd_container.c, pd_sortedbuf.c | all but freeing | |
| pd_pack.c | all: pack, unpack and the bit functions | nothing |
| pd_storage.c | new, add, iterate, search, stats, reading and writing store files | display |
| pd_splitdiagram.c | all | printing |
| pd_crossingmoves.c | R1 addition and deletion whole (from diagram to diagram), compacting helpers, pd_connect_sum, R2 bigon addition and elimination and R3 triangle flip whole (the crossing numbers R2 elimination swaps in its argument are left out) | clump slides |
| pd_simplify.c | whole | |
| pd_invariants.c | all | |
| pdcode_testcodes.c | twist, torus, chain, unknot, wye builders (crossing lists) | |
| plcTopology.c | Millett/Ewing positions, crossing_strand_cmp, divide_crossings_by_component, assemble_pdcode (C74), segment_side, locate_crossing, tag_as_trouble, make_zprojection_generic, findcrossings, pd_code_from_plCurve (C75, over the reals) | HOMFLY |
| plcRandomPolygon.c | closed, open and plane polygons of the symmetric measure, arcs of given failure to close (C76), equilateral closed and open polygons (C77), all over the reals | distribution of the samples |
| plcRandomSap.c | the self-avoiding polygon sampler and plc_is_sap (C78, over the reals), the generator with its jump (C39, C79) | distribution of the samples |
| plCurve.c | constraints, vertex numbering, plc_write, plc_read, get_comment, skip_whitespace_and_comments, scandoubles/scanints, plc_fix_wrap, plc_add_component, plc_drop_component, plc_copy, plc_resize_colorbuf, plc_set_color, plc_delete_arc, plc_double_verts, mpsverts up to arithmetic, plc_rotate, plc_pfm, plc_translate, plc_scale, plc_project, plc_random_rotate, plc_check_cst, plc_fix_cst, plc_arclength, plc_subarc_length, plc_s, plc_edgelength_stats, plc_pointset_diameter, plc_center_of_mass, plc_gyradius, plc_mean_squared_chordlengths, plc_turning_angle, plc_MR_curvature over the real numbers (numbers: any format with the laws of `NumFmt`; allocation does not fail; symmetry groups are left out) | the rest of the geometry |
| vector.c, symmetries.c | plc_rotate_vect, the matrices, building and composing symmetries, the three kinds of groups, symmetrizing curves and variations, the checks, over the real numbers | the rest of vector.c; copying and freeing of symmetries and groups (copies keep the pointer to the original curve) |
| nearest_neighbor.c | whole (C84), over the real numbers | two searches at once (the globals) |
| minrad.c | whole (C85), over the real numbers | |
| polynomials.c | product, comparison, printing for Mathematica, LaTeX and lmpoly, reading the output of lmpoly and KnotTheory | the local buffers of 256 bytes for sprintf |
| plcToricSymplecticTriangulation.c | chord systems: fan, teeth, spiral, random, crossing test; building and checking triangulations from chords; polygons from lengths and angles, and lengths and angles of polygons | printing, Mathematica output |
| plcToricSymplectic.c | the folded triangle, steps in the moment polytope, confined or not, the checks of lengths, lengths of the diagonals along the chain of confined equilateral polygons, permutation of the edges | random directions, numbers and shuffles are arbitrary; dihedral angles of the chain, estimates, logs |
| kascentpermutation.c, hypersimplex_sampling.c, plc_xoshiro.c | as in C37-C39 | moment polytope sampling |
| octrope except minrad.c and find_poca and the octree, the search for struts, the sorts, thickness and ropelength of octrope.c, pd_tangles.c, pd_avl.c, lmpoly, argtable, nplCurve | | all |
| src/matrix.c | building, products, LU decomposition, solving | real numbers without rounding; allocation and plc_matrix_copy are not modelled |
| src/geyer_estimators.c | all but memory management and timing | real numbers without rounding; cblas_ddot is the sum of products; the power of 2 in sample_mean is exact; the check for NaN in the data is left out |
| src/splines.c | conversion of a component to a spline and back, sampling and tangents | real numbers without rounding (in the code rounding can make the last assertion on svals fail for open components); tangents at the ends are arbitrary; allocation and the conversion of constraints are not modelled; one color channel |
| src/pd_deletions.c | all functions | pd_error is taken to stop the program |
| src/nvector.c | sum, difference, multiples, combinations, products, norm, distance, angle, normalizing with ok == NULL | real numbers without rounding; blocks are never freed; buffers, copying, division by components, comparison, random vectors and printing are not modelled |

## Some longer arguments

* *Linking numbers are integers and components are few.* `Proofs/Planar.lean`, `Proofs/CompBound.lean`: on a plane
  diagram with n crossings and n + 2 faces, a dimension count over ℤ/2 shows that every
  set of edges meeting each crossing in straight-through pairs is a sum of face
  boundaries. So two components cross an even number of times (C27), and a connected
  plane diagram has at most n/2 + 1 components (C21, C49).
* *Shadows, faces and components determine each other.* `Proofs/Shape.lean`: a map of
  edges carrying crossings to crossings in cyclic order gives a map of places (crossing,
  position); from it one gets maps of faces and of components, and back (C50, C52).
* *Planarity by counting cycles.* `Proofs/CycleCount.lean`, `Proofs/CycleMerge.lean`, `Proofs/LoopPlane.lean`,
  `Proofs/Beside.lean`, `Proofs/BigonPlane.lean`, `Proofs/TrianglePlane.lean`: a connected diagram is plane if the face permutation has n + 2 cycles. Surgery changes this
  permutation in a few places: a first-return map has the same cycles less those skipped, and exchanging two values merges
  two cycles or splits one. This gives planarity after loop moves (C63), connected sums (C64), bigon additions (C65) and triangle flips (C66), and the number of components.

## Axioms

`#print axioms` for every theorem named in MANIFEST.json lists a subset of `propext`,
`Classical.choice`, `Quot.sound`. `vcheck` runs this.

## Findings

Where the code does not do what a user would expect, the negation is a theorem.

| theorem | finding |
|---|---|
| C04_unset_signs_survive_false | packing turns unset signs into negative ones |
| C01_empty_string_dies, C03_no_crossings_faults | packing the empty bit string stops; packing 0 crossings leaves the buffer |
| C05_nperms_wraps | pd_nperms wraps from 13 letters on |
| C05/C08_zero_letters_undefined | iterators on 0 letters are undefined |
| C06_period_failsafe | pd_perm_period stops for orders above its safety limit |
| C07_perm_ok_reads_past_table | index equal to the table size reads past the table |
| C11_*_exact_false | dihedral and cyclic checkers accept [1,3,0,2] |
| C13_growth_wraps | container growth computes the byte count in 32 bits |
| C16_large_indices_false, C16_strand_cmp_false | comparators fail beyond 2^31; crossing_strand_cmp is not transitive |
| C17_not_idempotent_in_general | canonorder_cross of [0,1,0,0] |
| C18_unknot_reads_outside | 0-crossing unknot in regenerate_crossings |
| C19_regenerate_edges_false | crossing [0,1,0,1] runs into the failsafe |
| C21_regenerate_comps_false | component array overrun on non-plane input |
| C23_edges_ok_false | head and tail may name the same place |
| C27_half_false | Euler check accepts a disconnected non-plane diagram, linking number rounds |
| C30_composite_ok_false | composite edge maps carry a stale index and fail their own check |
| C31_empty_false | empty buffers compare as different |
| C32_repeated_crossing_dies | crossing map search on a diagram with equal crossings |
| C33_unsigned_stored_twice | unsigned diagrams are stored twice in isotopy mode |
| C34_next_needs_first | nextelt without firstelt |
| C36_figure_eight | R1 deletion refuses the one-crossing figure eight |
| C37_zero_ascents, C38_last_slice | k = 0, k = n-1 leave the buffers |
| C40_* | empty or long hashes, many components, 0 crossings do not round-trip |
| C41_loop_dies, C41_hopf_wrong | KnotTheory reader on two-edge components |
| C42_no_crossings | unterminated buffer |
| C44_other_component_lost | a constraint on another component disappears |
| C46_empty, C46_zero_kept | empty factor undefined; zero coefficients kept |
| C48_teeth_triangle, C48_spiral_triangle | n = 3 writes past an empty array |
| C50_count_mod_256, C50_zero_runs_lost, C50_bad_faces | the hash loses information; bad face records fail |
| C51_missing_faces_accepted, C51_tags_unchecked, C51_empty_face_ub | gaps in pd_ok |
| C52_wrong_direction_listed | pd_build_isos lists isomorphisms with wrong edge directions on two-edge components |
| C52_product_wraps, C52_chain_wraps | the number of edge maps is computed in 32 bits: pd_isomorphic on a chain of 12 rings and itself has 0 edge maps and leaves the array |
| C53_mixed_orientation_accepted | pd_iso_consistent accepts mixed and unset orientations |
| C54_reversed_ring_accepted | pd_diagram_isotopic does not look at directions on two-edge components: a ring reversed with signs kept is accepted |
| C54_other_tags_die, C54_exchanged_tags_die | the permutation built from tags keeps pc_idx 0, so pd_perm_ok fails and the program exits; so does a tag that is missing |
| C56_unsigned_swings | pd_regenerate turns an unsigned trefoil around each time it is called |
| C58_unsigned_stored_twice | a diagram without signs is stored once per insertion in the mode DIAGRAM_ISOTOPY |
| C59_read_inserts | the header of a store file is accepted if the claimed and the actual number of elements differ (unless PD_VERBOSE), and the number of hashes is not looked at |
| C60_unknown_number | a store file whose header has question marks for the number of elements passes the header check but always gives NULL at the end |
| C62_missing_edge_silent | pd_face_and_pos leaves its results unwritten for a number on no face, without stopping (unless PD_VERBOSE) |
| C62_copy_no_crossings | pd_copy of any diagram without crossings is the same unknot: the tag, uid and everything else are lost |
| C64_unknot_first, C64_unknot_second, C64_unknot_both | pd_connect_sum with an unknot without crossings reads its crossing table at PD_UNSET_IDX; with two of them it stops |
| C65_same_place_dies, C65_no_crossings | pd_R2_bigon_addition stops the program if it is given the same place twice (Hopf link), and writes out of bounds on a diagram without crossings; its last argument is ignored |
| C66_loop_side_dies, C66_trefoil_unknotted | pd_R3_triangle_flip does not check that the three corners differ: on an accepted diagram with a loop among the sides the program stops. It does not look at signs: the interlocked triangle of a trefoil is turned over, and the result unloops to the unknot |
| C70_writhe_changes | pd_R2_bigon_elimination does not check that the strands bound a face with two edges: on an accepted diagram of three positive crossings it takes off two of them and the writhe changes from 3 to 1 |
| C71_no_crossings | pd_simplify of a diagram without crossings, and of one whose last crossing goes, gives the unknot with tag A whatever the tag was |
| C72_loop_addition_stops | the crossing pd_R1_loop_addition adds has no sign, so pd_linking_number stops the program on the result even if all other crossings have signs |
| C74_missing_component | pd_code_from_plCurve ends the program if a link of two or more components has a component without crossings in the projection (instead of trying another direction) |
| C74_comparison_inconsistent, C74_never_equal | the comparison of strands passed to qsort is not transitive with its tolerance, and crossing_reference_compare never returns 0 |
| C75_rotation_unused, C75_attempts_alike | pd_code_from_plCurve rotates a copy of the curve to a random axis but projects the curve itself, so the rotation has no effect; a curve which passes the test but has two strands at one place fails in all nine attempts alike |
| C76_one_edge | plc_random_closed_polygon with one edge divides 0 by 0: the vertex is not a number. The self check compares with `>`, which is false for a value that is not a number, so it passes |
| C77_few_edges | plc_random_equilateral_closed_polygon with one or two edges accesses `d` outside of its bounds; only the upper bound 3000 is checked |
| C78_is_sap_blind, C78_check_two | plc_is_sap is true for every curve (`return false` only happens when messages are wanted); with messages it is false for every curve of two components, without looking at distances |
| C78_range | the header says 5 to 30 edges; from 26 on the program ends |
| C80_rotate_breaks_constraints | plc_rotate leaves constraints unrotated: a curve which obeyed its constraints violates them afterwards |
| C80_random_rotate_down | plc_random_rotate with the axis (0,0,-1) leaves the curve as it is: the axis points down afterwards, not up |
| C80_fold_outcome | plc_pfm with the same vertex given twice ends the program; the `if (vt0 == vt1) { return; }` comes after the assertion that the two vertices are different |
| C82_position_open | plc_s counts the last edge of every earlier open component twice (it runs up to `vt[nv]`, which for open components is the last but one vertex) |
| C82_chords_closed, C82_chords_open | plc_mean_squared_chordlengths reads behind its buffer for a skip larger than the number of vertices of a closed component; for an open one with no such chord it divides 0 by 0 |
| C82_turning, C82_turning_end | plc_turning_angle returns 0 (flag false) at any angle when the product of the edge lengths is at most 1e-12; at the ends of an open component the flag is not set at all |
| C83_colours_twice | plc_delete_arc leaves the number of colours: after a part of a component with one colour per vertex is deleted, plc_copy and a second plc_delete_arc end the program |
| C83_closed_outside | plc_delete_arc of an arc of at least nv vertices which begins after vertex 0 leaves nv at most 0, and plc_fix_wrap reads outside of the memory |
| C84_grown_buffer | plc_nearest_neighbor on fewer than 5000 points leaves data without a sorted buffer; a later call on 5000 or more points of the buffer reads through NULL |
| C84_changed_buffer | the data is recognised by the address of the buffer only: after the points change in place, the answer can be wrong |
| C84_box_too_large, C84_dimension_wrong | max_dimension puts the sides of the bounding box into ints: undefined from 2^31 on, and sides below 1 all count as 0 (only the speed depends on it) |
| C84_too_far, C84_vertex_of_nothing | with all squared distances from DBL_MAX on, the exhaustive search answers 0; plc_nearest_vertex of a curve without components reads outside of memory. nn_cmp never answers 0 for equal coordinates, which qsort does not allow (the model keeps "not greater") |
| C85_fold_left_out | octrope_minrad skips vertices whose edges have a small cross product: also those where the curve turns by pi, where the radius is 0 |
| C86_short_edges | edges of length 1e-7 which cross at a right angle: the determinant 1e-28 counts as parallel (below 1e-25), and half an edge length is reported as the distance |
| C86_no_edge | find_poca with an edge of length zero: 0/0, the results are not numbers |
| C87_straight | a curve none of whose vertices turns by more than pi/2^31: π/0, or a number too large, is converted to an int |
| C88_reads_in_front | sort_oct of twelve or more edges with equal tags (octrope_set_levels(1)) reads by_oct[-1]; the value is not used |
| C89_no_edges | octrope_struts of a curve without edges: no levels, `1 << -1` in build_octree |
| C90_fold | two edges at a vertex where the curve turns by pi overlap; adjacent edges are never compared, so this contact is not found |
| C91_uninitialised, C91_negative_lambda | octrope goes on after octrope_struts has refused a negative cutoff or epsilon, using an uninitialised length; octrope_thickness and octrope_ropelength return an uninitialised variable for negative lambda |
| C92_stale_copies | plc_symmetrize does not call plc_fix_wrap: vt[nv] of a closed component keeps the old place of vertex 0 |
| C93_coordplanes_null | plc_coordplanes_reflection_group looks only at sym[0] and sym[1] for NULL; with NULL in sym[2] plc_symmetrize uses the NULL pointer |
| C93_coordplanes_no_group | identity and three reflections are not closed under composition: a variation of a square, symmetrized, is not symmetric |
| C93_refused | plc_rotation_group with n <= 0 writes through NULL |
| C94_zero_diagonal | tsmcmc_embed_polygon with a diagonal of length 0: the comment says that any normal can be taken, but the normalised zero vector (not a number) is used as a direction all the same |
| C95_accepts_swapped | tsmcmc_triangulation_ok accepts a pentagon in which the two daughter triangles are taken for each other |
| C96_slow_direction | from a unit square with diagonal 1, a step in direction 1e-9 gives a diagonal of length 501, confined or not: inequalities whose slack changes slower than 1e-8 are left out, and the step is only bounded by 1e12 |
| C97_null | tsmcmc_edgepermute_step does not check for NULL from the embedding |
| C97_tolerance | edge lengths 1 + 9e-9, 1, 1, 1 - 9e-9 count as equilateral, but if the edges are reversed the final check fails and the program ends |
| C98_singular | lu_decmp reports only rows of zeros (the second pivot 0 is replaced by 1e-20): for all other singular matrices it returns a decomposition, with which solve_linear returns vectors that solve nothing. `*ok` is only ever set to false, so the caller has to set it to true before |
| C99_few | geyer_ips_value with error after 1, 2 or 3 samples writes Gamma[0] to a buffer allocated with calloc(0) |
| C99_one | with a buffer of size 1 and more than one sample geyer_ips_value reads littlegamma[1] out of bounds |
| C99_nan | if the estimated variance is negative geyer_ips_value returns NaN as error with *ok true (buffer 4; 3,-2,1,-2,3,-2,1,-2); ips_value falls back to gamma_0 |
| C99_constant | equal samples which do not fit in the buffer: *ok is false although the error 0 is exact |
| C100_open | plc_sample_spline and plc_spline_tangent on open components: parameters between the length and svals[ns] use vt2[ns], which plc_convert_to_spline never sets; negative parameters are reduced by svals[ns], which is not the length |
| C100_color | plc_convert_from_spline reads clr[ns] for closed components with a color for each vertex |
| C100_single | plc_convert_to_spline reads u[-1] for a component with one vertex |
| C101_loop | pd_crossing_delete tells the edge coming in from the edge going out by crossing number only, not by position. For the diagram of an unknot with one crossing it takes the wrong edge and then stops with pd_error |
| C101_loose, C101_edge_loose | pd_crossing_delete and pd_edge_delete do not check for ends that are unset: splicing an edge whose tail is loose, or erasing an edge twice, writes to cross[UINT_MAX] |
| C102_lmpoly_overrun | polynomial_to_lmpoly allocates lspan*mspan*256 bytes, where the spans are differences of powers. Both are 0 for the unknot, so lmpoly_check writes outside the allocation. |
| C103_overrun | lmpoly_to_polynomial allocates one monomial for each space in the text. Rows with a single coefficient have no space: "[[1]]N[1]N[1]N" has three monomials and room for two |
| C104_hopf | polynomial_to_lmpoly puts the row of m^0 in double brackets only if the polynomial has a monomial with m^0; a missing row is written as "[0]N". The polynomial of the Hopf link is read back with m^-3 and m^-1 instead of m^-1 and m^1 |
| C105_small | KnotTheory_to_polynomial allocates sizeof(homfly_polynomial_t *) bytes (8) for a structure of 16 |
| C106_sqDist | nplc_sq_dist returns the product of the vectors, not the square of their distance |
| C106_vmadd | nplc_vmadd writes A + sB over the values of its argument A |
| C67_thirty_constraints | plc_read of a file with 30 constraints or more (as plc_write writes it) writes out of bounds: the table grows to `10*((k+11) % 10)` entries |
| C67_long_line_rejected, C67_long_line_other_constraint | plc_write cuts vertex lines off at 79 characters and with them the number of the constraint: the file is rejected, or the vertex is read with another constraint |
| C67_keyword_ignored | plc_read does not check the keyword VECT |
| C68_add_moves, C68_drop_then_write, C68_write_outside | plc_add_component and plc_drop_component do not renumber constraints: they end up on other components, or outside the curve, where plc_write goes out of bounds |
| C68_colorbuf_garbage | plc_resize_colorbuf growing a buffer of two or more colours leaves the new ones unwritten |
| C69_no_colours, C69_last_vertex | plc_double_verts has undefined behaviour on every curve with an uncoloured component of two or more vertices; constraints on the last vertex are lost (unless a plane starts there) |
| C58_other_tags_die | a diagram with other tags than A, B, ... in order cannot be inserted twice in the mode DIAGRAM_ISOTOPY; a knot with the tag B is enough |

Noticed while reading and not backed by a theorem: pd_iso_cmp dereferences
the missing crossing map of 0-crossing diagrams; pd_homfly simplifies a copy and then
uses the original; pd_pack drops component tags; reading "?/?" headers of store files
always fails; teeth and random triangulations allocate sizeof of a pointer;
tsmcmc_vert_chord asserts `chord <= ndiags`; drop_component does not renumber constraints;
pd_diagram_isotopies leaks on its early return.
