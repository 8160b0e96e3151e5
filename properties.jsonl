{"id": "C01", "title": "Packed bit buffers round-trip", "statement": "Packing a bit string into the buffer of unsigned ints used by packed diagrams and then unpacking the same number of bits returns exactly the bits that were packed, and the buffer has exactly ceil(nbits/32) words.", "quantifier": "every bit string of every length", "why_tests_cant": "A test packs a handful of strings; the word-boundary cases (31/32/33 bits, partial last word) occur at every length.", "anchors": ["src/pd_pack.c:pd_packbitstring", "src/pd_pack.c:pd_unpackbitstring"]}
{"id": "C02", "title": "Every edge index fits in its packed field", "statement": "The field width chosen for an n-crossing diagram is large enough for every edge index 0..2n-1, is not larger than necessary, and encoding then decoding an index through that field returns the index.", "quantifier": "every crossing count n>=1 and every edge index < 2n", "why_tests_cant": "The width is ceil(log2(2n)); off-by-one errors appear only at powers of two, infinitely many of them.", "anchors": ["src/pd_pack.c:pd_indexbits", "src/pd_pack.c:pd_idx_bitencode", "src/pd_pack.c:pd_idx_bitdecode"]}
{"id": "C03", "title": "Packing and unpacking a signed diagram loses nothing", "statement": "For a diagram all of whose crossings have a sign and whose edge records agree with its crossing records, pd_pack followed by the decoding half of pd_unpack (before pd_regenerate) returns the same crossings, the same signs and the same head/tail records for every edge.", "quantifier": "every consistent diagram with at least one crossing and every crossing signed", "why_tests_cant": "Round trip must hold for every diagram a user stores in a pd_stor; tests cover a few knots.", "anchors": ["src/pd_pack.c:pd_pack", "src/pd_pack.c:pd_unpack", "src/pd_pack.c:pd_crossing_bitencode", "src/pd_pack.c:pd_crossing_bitdecode"]}
{"id": "C04", "title": "Unset crossing signs survive storage", "statement": "A diagram with unset crossing signs that is packed and unpacked still has unset crossing signs (so that a diagram in a store still matches itself).", "quantifier": "every consistent diagram with at least one crossing whose crossings are all unsigned", "why_tests_cant": "Needs a statement about every unsigned diagram; the shipped tests only store signed or only compare shadows.", "anchors": ["src/pd_pack.c:pd_unpack", "src/pd_pack.c:pd_crossing_bitdecode", "src/pd_storage.c:pd_addto_pdstor"]}
{"id": "C05", "title": "The permutation iterator visits every permutation once", "statement": "Starting from pd_new_perm on n letters, calling pd_increment_perm n!-1 times visits every permutation of n letters exactly once, in lexicographic order, and one more call returns to the identity; the number of visited values is pd_nperms.", "quantifier": "every n>=1", "why_tests_cant": "There are n! states for each n; tests stop at small n, and n<=6 is served by a different code path (a precomputed table) from n>6.", "anchors": ["src/pd_perm.c:pd_increment_perm", "src/pd_perm.c:pd_new_perm", "src/pd_perm.c:pd_nperms", "src/pd_permdata.h"]}
{"id": "C06", "title": "Permutation composition, inverse and period obey the group laws", "statement": "Composition of permutations is associative with the identity as unit, pd_inverse_perm is a two-sided inverse, results are again valid permutations, and pd_perm_period returns the least positive number of self-compositions giving the identity.", "quantifier": "every n and every pair/triple of valid permutations of n letters", "why_tests_cant": "Group laws are universally quantified over all permutations.", "anchors": ["src/pd_perm.c:pd_compose_perms", "src/pd_perm.c:pd_stareq_perm", "src/pd_perm.c:pd_inverse_perm", "src/pd_perm.c:pd_perm_period", "src/pd_perm.c:pd_perm_is_e"]}
{"id": "C07", "title": "pd_perm_ok accepts exactly the permutations", "statement": "pd_perm_ok returns true for a perm exactly when its map is a bijection of 0..n-1 and the cached table index is either unset or names that very permutation.", "quantifier": "every candidate perm record", "why_tests_cant": "Acceptance must be exact over all (not only valid) inputs.", "anchors": ["src/pd_perm.c:pd_perm_ok"]}
{"id": "C08", "title": "The dihedral iterator visits the dihedral group once", "statement": "Starting from pd_new_dihedral on n letters, repeated pd_increment_dihedral visits 2n pairwise different elements, all of them rotations (orientation +) or reflections (orientation -) of 0..n-1, covering the whole dihedral group, and the 2n-th increment returns to the start.", "quantifier": "every n>=2 (and n=1, where the two elements differ only in orientation)", "why_tests_cant": "One loop per n; unbounded n.", "anchors": ["src/pd_dihedral.c:pd_increment_dihedral", "src/pd_dihedral.c:pd_new_dihedral", "src/pd_dihedral.c:pd_ndihedrals"]}
{"id": "C09", "title": "The cyclic iterator visits every rotation once", "statement": "Starting from the identity, repeated pd_increment_cyclic visits the n rotations of 0..n-1, each once, and then returns to the identity.", "quantifier": "every n>=1", "why_tests_cant": "One loop per n; unbounded n.", "anchors": ["src/pd_cyclic.c:pd_increment_cyclic", "src/pd_cyclic.c:pd_new_cyclic", "src/pd_cyclic.c:pd_ncyclics"]}
{"id": "C10", "title": "Orientations compose as a two-element group", "statement": "pd_compose_or is associative, commutative, has POS as unit and every element is its own inverse; the orientation iterator alternates between the two orientations.", "quantifier": "every pair/triple of valid orientations", "why_tests_cant": "Laws relied on by every edgemap and face map composition.", "anchors": ["src/pdcode.c:pd_compose_or", "src/pd_orientation.c:pd_increment_orientation"]}
{"id": "C11", "title": "Dihedral and cyclic validity checks accept exactly the group elements", "statement": "pd_dihedral_ok accepts exactly the rotations and reflections, pd_cyclic_ok exactly the rotations, and everything the iterators produce is accepted.", "quantifier": "every candidate record of every size", "why_tests_cant": "Soundness of a checker quantifies over all bad inputs.", "anchors": ["src/pd_dihedral.c:pd_dihedral_ok", "src/pd_cyclic.c:pd_cyclic_ok"]}
{"id": "C12", "title": "The multi-index enumerates the full product exactly once", "statement": "For any list of iterators that each cycle through their k_i values, pd_increment_multidx visits every combination exactly once before it returns to the starting combination, and pd_multidx_nvals is the product of the k_i.", "quantifier": "every number of factors, every choice of factor sizes", "why_tests_cant": "The isomorphism search is complete only if the odometer misses nothing; the state space is an unbounded product.", "anchors": ["src/pd_multidx.c:pd_increment_multidx", "src/pd_multidx.c:pd_multidx_nvals", "src/pd_multidx.c:pd_new_multidx"]}
{"id": "C13", "title": "A container behaves as a stack and never overruns its buffer", "statement": "After any sequence of pd_addto_container / pd_pop_container / pd_container_elt calls (never popping an empty container), the container holds exactly what a stack would hold, lookups by index see the live elements, and no call reads or writes outside the allocated buffer.", "quantifier": "every history of operations", "why_tests_cant": "Growth happens only at particular fill levels in particular histories.", "anchors": ["src/pd_container.c:pd_addto_container", "src/pd_container.c:pd_pop_container", "src/pd_container.c:pd_container_elt", "src/pd_container.c:pd_new_container"]}
{"id": "C14", "title": "Sorted index buffers behave as sets", "statement": "pd_sortedbuf_insert into a strictly increasing buffer returns a strictly increasing buffer holding exactly the old elements plus the new one, and pd_sortedbuf_contains answers membership.", "quantifier": "every sorted buffer and every value; hence every insertion history", "why_tests_cant": "Insertion position (front, middle, back, duplicate, empty) over all buffers.", "anchors": ["src/pd_sortedbuf.c:pd_sortedbuf_insert", "src/pd_sortedbuf.c:pd_sortedbuf_contains"]}
{"id": "C15", "title": "Compacting a buffer keeps the survivors in order and maps indices to them", "statement": "pd_compacting_copy given any list of positions to delete (unordered, with repetitions) returns the surviving elements in their original order, and an index map sending each surviving position to its new place and each deleted position to PD_UNSET_IDX.", "quantifier": "every source buffer and every deletion list with positions in range", "why_tests_cant": "Every Reidemeister move depends on this for arbitrary deletion lists.", "anchors": ["src/pd_crossingmoves.c:pd_compacting_copy", "src/pd_crossingmoves.c:pd_idx_cmp"]}
{"id": "C16", "title": "The library's comparison functions are consistent orders", "statement": "The comparison functions handed to qsort/bsearch (crossings, faces, components, permutations, dihedral, cyclic, orientation, index) are antisymmetric and transitive and return 0 only for data that compares equal field by field, for all index values the library can produce (below 2^31).", "quantifier": "every pair/triple of records", "why_tests_cant": "qsort with an inconsistent comparator is undefined behaviour; consistency ranges over all triples.", "anchors": ["src/pdcode.c:pd_cross_cmp", "src/pdcode.c:pd_face_cmp", "src/pdcode.c:pd_component_cmp", "src/pd_perm.c:pd_perm_lex_cmp", "src/pd_crossingmoves.c:pd_idx_cmp"]}
{"id": "C17", "title": "Canonical crossing order is a canonical form", "statement": "pd_canonorder_cross turns a crossing into a rotation of itself (or of its mirror image when asked for the negative orientation) that begins with a smallest edge index; two crossings with four distinct edges become equal exactly when one is a rotation (mirror rotation) of the other, and the operation is idempotent.", "quantifier": "every crossing and both orientations", "why_tests_cant": "Uniqueness of canonical forms is a statement about all pairs.", "anchors": ["src/pdcode.c:pd_canonorder_cross"]}
{"id": "C18", "title": "Re-sorting crossings preserves the diagram", "statement": "pd_regenerate_crossings leaves the diagram the same up to renumbering and rotating crossings: edge records still agree with crossing records, every crossing starts with its smallest edge, crossings are sorted, and each crossing's cyclic edge order and sign are unchanged.", "quantifier": "every diagram whose edge records agree with its crossings, whatever the tie-breaking of qsort", "why_tests_cant": "Must hold for every diagram and for every legal qsort.", "anchors": ["src/pdcode.c:pd_regenerate_crossings", "src/pdcode.c:pd_cross_rdist", "src/pdcode.c:pd_rotate_left"]}
{"id": "C19", "title": "Edges can be rebuilt from any crossing list", "statement": "If every edge number 0..2n-1 occurs exactly twice in the crossing list, pd_regenerate_edges produces edge records in which every edge's head and tail are exactly the two places where its number occurs, and strands pass straight through crossings with consistent direction.", "quantifier": "every crossing list in which each label occurs twice", "why_tests_cant": "All 4-valent labelled crossing lists, including loops and multi-edges.", "anchors": ["src/pdcode.c:pd_regenerate_edges", "src/pdcode.c:pd_find_edge_in_crossings", "src/pdcode.c:pd_reorient_edge"]}
{"id": "C20", "title": "Next edge and previous edge are inverse", "statement": "On a consistent, consistently oriented diagram pd_next_edge and pd_previous_edge are mutually inverse bijections of the edges.", "quantifier": "every consistent oriented diagram and every edge", "why_tests_cant": "Component traversal depends on it for every diagram.", "anchors": ["src/pdcode.c:pd_next_edge", "src/pdcode.c:pd_previous_edge"]}
{"id": "C21", "title": "Components partition the edges", "statement": "After pd_regenerate_comps every edge lies on exactly one component at exactly one position, components are cyclically closed under 'next edge', edges are numbered consecutively along components, and components are sorted longest first.", "quantifier": "every consistent oriented diagram, whatever the tie-breaking of qsort", "why_tests_cant": "All diagrams.", "anchors": ["src/pdcode.c:pd_regenerate_comps", "src/pdcode.c:pd_next_comp_edge"]}
{"id": "C22", "title": "Faces partition the oriented edges", "statement": "After pd_regenerate_faces every (edge, direction) pair occurs on exactly one face at exactly one position, and consecutive face edges turn at a common crossing; so face lengths sum to twice the number of edges.", "quantifier": "every consistent diagram", "why_tests_cant": "All diagrams.", "anchors": ["src/pdcode.c:pd_regenerate_faces", "src/pdcode.c:pd_next_edge_on_face"]}
{"id": "C23", "title": "A diagram that passes the crossing and edge checks is consistent", "statement": "If pd_cross_ok and pd_edges_ok accept a diagram then every edge number occurs in exactly two crossing slots, namely the ones its record names, and every consistent diagram is accepted.", "quantifier": "every candidate diagram", "why_tests_cant": "Soundness and completeness of a checker range over all inputs.", "anchors": ["src/pdcode.c:pd_cross_ok", "src/pdcode.c:pd_edges_ok"]}
{"id": "C24", "title": "The cyclic canonical order used by the hash is canonical", "statement": "pd_canonicalorder rewrites a buffer as the lexicographically least among all its rotations and reversed rotations; hence two buffers related by rotation/reversal give the same result, and the result is itself a rotation or reversed rotation of the input.", "quantifier": "every buffer of every length", "why_tests_cant": "All rotations of all buffers.", "anchors": ["src/pdcode.c:pd_canonicalorder", "src/pdcode.c:buf_cmp"]}
{"id": "C25", "title": "Hash characters encode their six bits injectively", "statement": "The base64 character used in hashes determines the six-bit value it encodes and is always printable.", "quantifier": "every six-bit value (and every larger value is masked)", "why_tests_cant": "Finite, but the hash comparison relies on injectivity for every value.", "anchors": ["src/pdcode.c:pd_base64"]}
{"id": "C26", "title": "Over- and understrands are what the sign convention says", "statement": "For every signed crossing the over strand and the under strand are the two opposite-position pairs, each directed from incoming edge to outgoing edge, the sign of the crossing is +1 exactly when rotating the over strand counterclockwise gives the under strand, and flipping the sign swaps the strands.", "quantifier": "every crossing of every consistent oriented diagram", "why_tests_cant": "All position/direction/sign combinations in arbitrary diagrams.", "anchors": ["src/plcTopology.c:pd_overunder_internal", "src/plcTopology.c:pd_overstrand", "src/plcTopology.c:pd_understrand", "src/plcTopology.c:pd_overstrand_pos", "src/plcTopology.c:pd_understrand_pos"]}
{"id": "C27", "title": "Linking number counts signed inter-component crossings once", "statement": "pd_linking_number of two different components is half the sum of the signs of the crossings where they meet, is symmetric in its arguments, and negates when all those signs flip.", "quantifier": "every consistent signed diagram and every pair of components", "why_tests_cant": "All diagrams.", "anchors": ["src/plcTopology.c:pd_linking_number"]}
{"id": "C28", "title": "The interlacement count counts interlaced pairs", "statement": "The per-component interlaced crossing count equals the number of pairs of self-crossings of the component whose four visits alternate (a..b..a..b) along it.", "quantifier": "every Gauss code in which each kept crossing is visited exactly twice", "why_tests_cant": "Computed through a bubble-sort swap parity argument, which has to be right for all codes.", "anchors": ["src/pd_invariants.c:pd_interlaced_crossings", "src/pd_invariants.c:pd_interlaced_comp"]}
{"id": "C29", "title": "Reversing a component twice gives the diagram back", "statement": "Reversing the orientation of a component keeps the diagram consistent, flips the sign exactly of crossings between that component and others, and doing it twice restores the original diagram.", "quantifier": "every consistent diagram and every component", "why_tests_cant": "All diagrams.", "anchors": ["src/pd_operations.c:pd_reorient_component", "src/pdcode.c:pd_reorient_edge"]}
{"id": "C30", "title": "Edge maps compose like signed permutations", "statement": "Composition of edge maps applies the right map first, composes orientations, is associative, and preserves validity.", "quantifier": "every triple of edge maps of the same size", "why_tests_cant": "Isomorphism composition and period rely on it for all maps.", "anchors": ["src/pd_isomorphisms.c:pd_compose_edgemaps", "src/pd_isomorphisms.c:pd_stareq_edgemap"]}
{"id": "C31", "title": "Cyclic buffer comparison is exact", "statement": "pdint_buffers_cycliceq answers true exactly when one buffer is a rotation of the other (or, with the negative orientation, of its reversal); two empty buffers are an exception, for which it answers false. pdint_in_cyclic_order answers whether two places are neighbours on a cycle, in the given direction.", "quantifier": "every pair of buffers of equal length, both orientations; every cycle length", "why_tests_cant": "All buffers, including those with repeated entries.", "anchors": ["src/pd_isomorphisms.c:pdint_buffers_cycliceq", "src/pd_isomorphisms.c:pdint_in_cyclic_order"]}
{"id": "C32", "title": "A reported isomorphism is one", "statement": "Every crossing map built from an edge map by the isomorphism search sends each crossing to a crossing of the target whose edges are the images of its edges in the same (or mirrored) cyclic order, and a crossing map is found whenever the edge map carries crossings to crossings.", "quantifier": "every pair of diagrams with crossings in canonical order, every edge map which is a permutation, both orientations, signed and unsigned", "why_tests_cant": "Soundness and completeness of a search.", "anchors": ["src/pd_isomorphisms.c:pd_build_oriented_crossmap", "src/pd_isomorphisms.c:pd_build_crossmaps"]}
{"id": "C33", "title": "A store never holds two equivalent diagrams and never loses one", "statement": "After any sequence of insertions in one mode, a store holds pairwise inequivalent diagrams, every inserted diagram is equivalent to a stored one with the uid it was given, uids are unique within a hash bucket, and the element count equals the number of stored diagrams.", "quantifier": "every insertion history and every equivalence (isomorphism / isotopy / none)", "why_tests_cant": "Histories are unbounded.", "anchors": ["src/pd_storage.c:pd_addto_pdstor", "src/pd_storage.c:pd_stor_nelts"]}
{"id": "C34", "title": "Iterating over a store visits each element once", "statement": "pd_stor_firstelt followed by pd_stor_nextelt until NULL returns every stored diagram exactly once, in order of hash and uid.", "quantifier": "every store contents", "why_tests_cant": "All bucket structures, including empty store and one-element buckets.", "anchors": ["src/pd_storage.c:pd_stor_firstelt", "src/pd_storage.c:pd_stor_nextelt"]}
{"id": "C35", "title": "Splitting a diagram separates exactly the connected pieces", "statement": "The labels computed by pd_split_diagram's search agree on two edges exactly when the edges are connected through crossings.", "quantifier": "every consistent diagram", "why_tests_cant": "All diagrams.", "anchors": ["src/pd_splitdiagram.c:pd_split_worker", "src/pd_splitdiagram.c:pd_split_diagram"]}
{"id": "C36", "title": "Removing or adding a loop (Reidemeister I) keeps diagrams consistent", "statement": "pd_R1_loop_addition adds one crossing and two edges (and pd_R1_loopdeletion removes one crossing and two edges) and the result's edge records agree with its crossing records.", "quantifier": "every consistent diagram and every edge/face (monogon crossing)", "why_tests_cant": "All diagrams.", "anchors": ["src/pd_crossingmoves.c:pd_R1_loop_addition", "src/pd_crossingmoves.c:pd_R1_loopdeletion"]}
{"id": "C37", "title": "The k-ascent sampler always returns a permutation with exactly k ascents", "statement": "For 1<=k<=n-1 random_k_ascent_permutation returns a permutation of 1..n having exactly k ascents, never touching memory outside its buffers, whatever numbers the random generator supplies.", "quantifier": "every n, every k in range, every random stream", "why_tests_cant": "The random stream is an unbounded adversarial schedule.", "anchors": ["src/kascentpermutation.c:random_k_ascent_permutation", "src/kascentpermutation.c:build_choice_vector", "src/kascentpermutation.c:insert_at_ascent", "src/kascentpermutation.c:insert_at_descent"]}
{"id": "C38", "title": "The hypersimplex map turns ascents into the slice", "statement": "The coordinate-difference map sends a point of the cube to a point of the cube whose coordinate sum is the last coordinate plus the number of descents of the point, so its integer part is the number of descents.", "quantifier": "every dimension and every point of the half-open unit cube (over an ordered field)", "why_tests_cant": "All points.", "anchors": ["src/hypersimplex_sampling.c:psi_inverse"]}
{"id": "C39", "title": "The random generator never gets stuck", "statement": "The xoshiro state transition is injective and never reaches the all-zero state from a nonzero one; seeding never yields the all-zero state; the uniform value is in [0,1).", "quantifier": "every 256-bit state, every 64-bit seed, every number of steps", "why_tests_cant": "2^256 states.", "anchors": ["src/plc_xoshiro.c:plc_xoshiro_next", "src/plc_xoshiro.c:plc_xoshiro_init", "src/plc_xoshiro.c:plc_xoshiro_uniform"]}
{"id": "C40", "title": "Written diagrams read back", "statement": "The token stream written by pd_write, parsed by pd_read, yields the same crossings, signs, edges, components, tags and faces.", "quantifier": "every valid diagram", "why_tests_cant": "All diagrams.", "anchors": ["src/pdcode.c:pd_write", "src/pdcode.c:pd_read_err"]}
{"id": "C41", "title": "KnotTheory codes read with the orientation their numbering says", "statement": "pd_read_KnotTheory gives strand directions following increasing edge numbers along each component, for components with at least three edges and for two-edge components.", "quantifier": "every KnotTheory PD code", "why_tests_cant": "All codes; two-edge components are handled by special-case code.", "anchors": ["src/pdcode.c:pd_read_KnotTheory"]}
{"id": "C42", "title": "Millett-Ewing codes are reciprocal", "statement": "In the code written for a diagram, if crossing i says its strand x leads to strand y of crossing j then crossing j says its strand y leads to strand x of crossing i.", "quantifier": "every consistent signed diagram", "why_tests_cant": "All diagrams; an external HOMFLY program silently miscomputes on non-reciprocal input.", "anchors": ["src/plcTopology.c:pdcode_to_ccode", "src/plcTopology.c:pd_millet_ewing_positions"]}
{"id": "C43", "title": "The example builders produce legal crossing lists", "statement": "pd_build_twist_knot, pd_build_torus_knot (2,q), pd_build_simple_chain, pd_build_unknot: every edge number 0..2n-1 occurs exactly twice, for every size.", "quantifier": "every size parameter", "why_tests_cant": "Unbounded families.", "anchors": ["src/pdcode_testcodes.c:pd_build_twist_knot", "src/pdcode_testcodes.c:pd_build_torus_knot", "src/pdcode_testcodes.c:pd_build_simple_chain", "src/pdcode_testcodes.c:pd_build_unknot"]}
{"id": "C44", "title": "Setting a constraint affects exactly the requested vertices", "statement": "After plc_set_fixed / plc_constrain_to_line / plc_constrain_to_plane / plc_unconstrain on a run of vertices, plc_is_constrained reports exactly that constraint for the vertices in the run and its previous answer for every other vertex; the constraint list stays sorted and non-overlapping.", "quantifier": "every history of calls and every vertex of every component", "why_tests_cant": "Splitting/merging of runs over unbounded histories.", "anchors": ["src/plCurve.c:plc_set_constraint", "src/plCurve.c:overrun_check", "src/plCurve.c:plc_is_constrained", "src/plCurve.c:plc_unconstrain"]}
{"id": "C45", "title": "Flat vertex numbers and (component, vertex) pairs correspond", "statement": "plc_vertex_num maps pairs in range injectively onto 0..num_verts-1, and plc_cp_num/plc_vt_num invert it; out-of-range vertex numbers wrap on closed components and clamp on open ones.", "quantifier": "every curve shape and every vertex", "why_tests_cant": "All component-size vectors.", "anchors": ["src/plCurve.c:plc_vertex_num", "src/plCurve.c:plc_cp_num", "src/plCurve.c:plc_vt_num", "src/plCurve.c:plc_num_verts"]}
{"id": "C46", "title": "The HOMFLY product is the polynomial product", "statement": "product_polynomial of two nonempty polynomials represents the product polynomial (every coefficient is the convolution sum) and lists each power pair at most once in sorted order.", "quantifier": "every pair of nonempty monomial lists, whatever the tie-breaking of qsort", "why_tests_cant": "All polynomials.", "anchors": ["src/polynomials.c:product_polynomial", "src/polynomials.c:monomial_cmp"]}
{"id": "C47", "title": "Polynomial comparison decides equality of polynomials", "statement": "polynomials_eq answers true exactly when the two monomial lists are equal as multisets, and so, for lists with distinct powers and no zero coefficients, exactly when the polynomials are equal.", "quantifier": "every pair of monomial lists", "why_tests_cant": "All polynomials; product_polynomial can emit zero coefficients, which breaks the reduced-form assumption.", "anchors": ["src/polynomials.c:polynomials_eq", "src/polynomials.c:product_polynomial"]}
{"id": "C48", "title": "Generated chord systems are triangulations", "statement": "The fan, teeth, spiral and random triangulations of an n-gon consist of exactly n-3 chords, each a proper diagonal, no two equal or crossing \u2014 for the random one whatever the random generator returns.", "quantifier": "every n>=3 (n>=4 for teeth and spiral), every random stream", "why_tests_cant": "Unbounded n and adversarial random stream.", "anchors": ["src/plcToricSymplecticTriangulation.c:tsmcmc_fan_triangulation", "src/plcToricSymplecticTriangulation.c:tsmcmc_teeth_triangulation", "src/plcToricSymplecticTriangulation.c:tsmcmc_spiral_triangulation", "src/plcToricSymplecticTriangulation.c:tsmcmc_random_triangulation_worker", "src/plcToricSymplecticTriangulation.c:tsmcmc_chords_cross"]}
{"id": "C49", "title": "pd_regenerate rebuilds the diagram it was given", "statement": "On the crossings of a connected plane diagram pd_regenerate returns without touching memory outside its buffers; the result is the same diagram up to names of edges and crossings, with correct component and face records. When edge records agree with the crossings and some sign is set, directions and signs are kept; otherwise whole components may change direction and all signs are unset.", "quantifier": "every connected plane diagram with at least one crossing, every state of the edge records with heads and tails in range, whatever the tie-breaking of qsort", "why_tests_cant": "All diagrams and all stale edge lists; needs the bound n/2+1 on the number of components of a plane diagram.", "anchors": ["src/pdcode.c:pd_regenerate", "src/pdcode.c:pd_regenerate_edges", "src/pdcode.c:pd_regenerate_comps", "src/pdcode.c:pd_regenerate_faces", "src/pdcode.c:pd_code_new"]}
{"id": "C50", "title": "The hash depends on the shadow only", "statement": "pd_regenerate_hash returns a string of 31 printable characters, and two diagrams with the same shadow (the same crossings and edges in the same cyclic orders, under any names, whichever way components run, possibly seen in a mirror) get the same string. So pd codes with different hashes are never isomorphic, which pd_isomorphic, pd_diagram_isotopic and the pd storage use to skip comparisons.", "quantifier": "every pair of connected plane diagrams with at least one crossing, every renaming, whatever the tie-breaking of qsort in the two runs", "why_tests_cant": "All diagrams and all renamings; a missed dependency on the numbering would only show as a lost isomorphism for some diagram.", "anchors": ["src/pdcode.c:pd_regenerate_hash", "src/pdcode.c:pd_canonicalorder", "src/pdcode.c:pd_regenerate", "src/pd_isomorphisms.c:pd_build_isos"]}
{"id": "C51", "title": "pd_ok accepts what pd_regenerate makes and only records that agree with the crossings", "statement": "pd_ok returns true for every diagram that pd_regenerate makes from a connected plane diagram (or from its crossings alone) in buffers made by pd_code_new. Conversely, when pd_ok returns true for a diagram with at least one crossing, every edge number occurs twice among the crossings and edge records name those places, strands go straight through crossings, component records number all edges consecutively along the strands with pairwise different tags, face records go around faces, start with their smallest edge and are in order, and no count exceeds its buffer. Deviations shown: missing, repeated or doubly traversed faces are accepted; gaps in the tags and a smallest tag before 'A' are accepted although the comment promises otherwise; a face without edges is undefined behaviour.", "quantifier": "all diagrams with at least one crossing; for acceptance all connected plane diagrams, all qsort behaviours", "why_tests_cant": "Soundness of a checker is a statement about every record it accepts; acceptance is about every diagram of every size.", "anchors": ["src/pdcode.c:2313-2627", "src/pdcode.c:2069-2128", "src/plcTopology.h"]}
{"id": "C52", "title": "pd_build_isos finds every isomorphism once, and pd_isomorphic decides equality of shadows", "statement": "For two diagrams as pd_regenerate leaves them, pd_build_isos returns a list in which every member is an isomorphism (components to components, followed in one direction; edges, crossings and faces carried along in cyclic order, all in the same or all in the opposite order), every isomorphism occurs, and none occurs twice; no assertion fails. pd_isomorphic returns true exactly when the edges and crossings of one diagram can be renamed to those of the other keeping, or reversing, the cyclic order at every crossing; so it is an equivalence relation. On components with three or more edges the direction stored for an edge agrees with where its ends go. Deviation shown: on components with two edges isomorphisms with wrong directions are listed (from the Hopf link to itself, one that fixes every edge and crossing and claims to reverse every edge).", "quantifier": "every pair of connected plane diagrams with at least one crossing, at most 12 components and product of 2*nedges below 2^32, whatever the tie-breaking of qsort and bsearch", "why_tests_cant": "All pairs of diagrams and all renamings: completeness of a search over component permutations, rotations and reflections, with early exits on the hash and on counts.", "anchors": ["src/pd_isomorphisms.c:pdint_build_isos", "src/pd_isomorphisms.c:pd_isomorphic", "src/pd_isomorphisms.c:pd_build_compgrps", "src/pd_isomorphisms.c:pd_build_compperms", "src/pd_isomorphisms.c:pd_build_edgemaps", "src/pd_isomorphisms.c:pd_build_facemaps", "src/pd_isomorphisms.c:pd_isos_unique"]}
{"id": "C53", "title": "pd_iso_consistent accepts exactly the isomorphisms", "statement": "Given two diagrams in order and an isomorphism record with a crossing map that passes pd_iso_ok, pd_iso_consistent reads only inside its arrays and returns true exactly when the maps follow each component of the first diagram around its image in the direction stored for its edges and carry crossings to crossings and faces to faces in cyclic order. Deviations shown: it accepts a crossing map and a face map of opposite orientations, reads an orientation that is not set as negative, and does not compare edge directions with the crossing map, so that on two-edge components a wrong direction passes.", "quantifier": "every pair of diagrams with the same number of crossings and components, every isomorphism record", "why_tests_cant": "All records, including those no search would produce.", "anchors": ["src/pd_isomorphisms.c:pd_iso_consistent", "src/pd_isomorphisms.c:pd_iso_ok"]}
{"id": "C54", "title": "pd_build_diagram_isotopies finds every isotopy once, and pd_diagram_isotopic decides equality of diagrams", "statement": "For two diagrams as pd_regenerate leaves them (with any pairwise different tags, in matching order), pd_build_diagram_isotopies returns a list in which every member carries components to components with the same tag in the order of their edges, crossings to crossings of the same sign and faces to faces, every such map occurs, and none occurs twice; no assertion fails. Diagrams that are the same up to renaming edges and crossings, turning crossings and looking from behind (slots, ends of edges, signs and tags all kept) are always found isotopic; when all components have at least three edges, only those are. pd_diagram_isotopic is an equivalence relation. Deviations shown: a ring of two edges that is reversed while all signs are kept goes unnoticed, so two different diagrams are found isotopic; when the shadows and the sums of signs agree but a tag is missing, or there are at most six components and the tags come in another order, the program exits.", "quantifier": "every pair of connected plane diagrams with at least one crossing whose component sizes multiply to less than 2^32", "why_tests_cant": "All pairs of diagrams and all maps between them; a lost isotopy shows only on diagrams with the right symmetry.", "anchors": ["src/pd_isomorphisms.c:pd_build_diagram_isotopies", "src/pd_isomorphisms.c:pd_diagram_isotopic", "src/pd_isomorphisms.c:pd_is_diagram_isotopy", "src/pd_isomorphisms.c:pd_diagram_isotopy_ok", "src/pd_isomorphisms.c:pd_build_oriented_edgemaps"]}
{"id": "C55", "title": "pd_build_map_isomorphisms finds every orientation-preserving isomorphism once", "statement": "For two diagrams as pd_regenerate leaves them, pd_build_map_isomorphisms returns exactly the isomorphisms of C52 that keep the cyclic order at crossings and faces, each once, and no assertion fails. pd_map_isomorphic returns true exactly when the edges and crossings of one diagram can be renamed to those of the other keeping the cyclic order at every crossing.", "quantifier": "every pair of connected plane diagrams with at least one crossing, at most 12 components, and component sizes whose doubles multiply to less than 2^32", "why_tests_cant": "All pairs of diagrams and all maps between them.", "anchors": ["src/pd_isomorphisms.c:pd_build_map_isomorphisms", "src/pd_isomorphisms.c:pdint_build_map_isomorphisms", "src/pd_isomorphisms.c:pd_map_isomorphic"]}
{"id": "C56", "title": "pd_regenerate is idempotent", "statement": "After pd_regenerate, a second pd_regenerate leaves crossings, edges, components, faces, tags and hash as they are, however the two calls of qsort treat equal elements and whatever the sizes of the buffers. Proved for diagrams with at least one sign set. Deviation shown: without signs the direction of a component is chosen anew each time, and a trefoil is turned around by every call, its crossings, edge records and faces alternating between two forms.", "quantifier": "every connected plane diagram with at least one crossing and fewer than 2^30 edges", "why_tests_cant": "All diagrams in all numberings; idempotence rests on sorts, renumberings and searches that each depend on the results of the others.", "anchors": ["src/pdcode.c:pd_regenerate", "src/pdcode.c:pd_regenerate_crossings", "src/pdcode.c:pd_regenerate_edges", "src/pdcode.c:pd_regenerate_comps", "src/pdcode.c:pd_regenerate_faces"]}
{"id": "C57", "title": "pd_unpack(pd_pack(pd)) is pd", "statement": "A diagram as pd_regenerate leaves it, with all signs set, comes back from pd_pack and pd_unpack with the same crossings, signs, edges, components, tags, faces and hash, and uid 0; the final assertion pd_ok holds. A diagram without signs comes back the same except that all signs are negative. A plane diagram with all signs set in any other state comes back as pd_regenerate would leave it: renamed, with directions and signs kept.", "quantifier": "every connected plane diagram with at least one crossing and fewer than 2^30 edges, whose signs are all set or all unset", "why_tests_cant": "All diagrams; the result passes through bit fields, sorts and the regeneration of all records.", "anchors": ["src/pd_pack.c:pd_pack", "src/pd_pack.c:pd_unpack", "src/pdcode.c:pd_regenerate", "src/pdcode.c:pd_code_new"]}
{"id": "C58", "title": "A diagram store keeps exactly one diagram of each class, with the library's own packing and comparison", "statement": "Insert any list of diagrams into an empty store in the mode ISOMORPHISM (or, with all signs set, DIAGRAM_ISOTOPY), and then visit all elements with pd_stor_firstelt and pd_stor_nextelt. No assertion fails; two inserted diagrams get the same hash and uid exactly if they have the same shadow (or are isotopic); every diagram visited is one that was inserted, no two of them are equivalent, and every inserted diagram is equivalent to one visited with its uid; the count of elements is right modulo 2^32. pd_search_pdstor_by_isomorphism finds a diagram exactly if one with the same shadow was inserted, together with all isomorphisms. Deviations shown: a diagram without signs inserted twice in the mode DIAGRAM_ISOTOPY is stored twice; one whose tags are not A, B, ... in order cannot be inserted twice, the program exits.", "quantifier": "every list of connected plane diagrams as pd_regenerate leaves them, with at most 12 components and component sizes whose doubles multiply to less than 2^32", "why_tests_cant": "All histories of insertions of all diagrams; an error shows only for diagrams with equal hashes.", "anchors": ["src/pd_storage.c:pd_addto_pdstor", "src/pd_storage.c:pd_stor_firstelt", "src/pd_storage.c:pd_stor_nextelt", "src/pd_storage.c:pd_search_pdstor_by_isomorphism", "src/pd_pack.c:pd_unpack", "src/pd_isomorphisms.c:pd_isomorphic", "src/pd_isomorphisms.c:pd_diagram_isotopic"]}
{"id": "C59", "title": "A diagram store written to a file and read again is the same store", "statement": "Insert any list of diagrams into an empty store, write it with pd_write_pdstor and read it with pd_read_pdstor in the same mode. No assertion fails; reading succeeds whatever follows in the file; the store read has the same hashes and uids in the same order, and unpacking gives the same diagrams; if all diagrams had signs the two stores are equal. Reading a file, of whatever origin, is inserting its elements in order. A file that ends before the promised number of elements gives NULL. Deviations shown: without PD_VERBOSE the numbers 'claimed' and 'actual' in the header need not agree and the number of hashes is never compared.", "quantifier": "every mode and every list of fewer than 2^32 connected plane diagrams as pd_regenerate leaves them, with at most 62 components, all signs set (or, except in the mode DIAGRAM_ISOTOPY, none), within the limits of the comparison", "why_tests_cant": "All histories of insertions and all diagrams; the result passes through printing, parsing, packing and comparing every element.", "anchors": ["src/pd_storage.c:pd_write_pdstor", "src/pd_storage.c:pd_read_pdstor", "src/pdcode.c:pd_write", "src/pdcode.c:pd_read"]}
{"id": "C60", "title": "A store file written in several steps is read as one store", "statement": "Start a file with pd_start_incremental_pdstor, add any number of stores with pd_addto_incremental_pdstor and finish it with pd_finish_incremental_pdstor and the totals. The new header fits exactly over the old one; pd_read_pdstor reads one store, in which every diagram inserted into any of the stores is equivalent to an element, every element is equivalent to a diagram inserted, and no two elements are equivalent even if they come from different stores; in the mode NONE there is one element per insertion. A file that was not finished gives NULL. Deviation shown: the header 'nelts ?/?', which pd_read_pdstor accepts for files with an unknown number of elements, never leads to a store, since the number is taken to be UINT_MAX and a file with fewer elements is rejected.", "quantifier": "every mode and all lists of lists of diagrams as in C59 with fewer than 2^32 elements together; for the deviation every text of fewer than 2^32-1 characters", "why_tests_cant": "All sequences of stores; the header is overwritten in place, so its length must be the same for all totals.", "anchors": ["src/pd_storage.c:pd_start_incremental_pdstor", "src/pd_storage.c:pd_addto_incremental_pdstor", "src/pd_storage.c:pd_finish_incremental_pdstor", "src/pd_storage.c:pd_read_pdstor"]}
{"id": "C61", "title": "pd_is_alternating decides alternation, and every plane shadow is alternating in exactly two ways", "statement": "On a diagram with all signs set, pd_is_alternating returns true exactly if along every edge an overpass at one end goes with an underpass at the other. Of all the ways to set the signs of a connected plane diagram it accepts exactly two, and these are opposite at every crossing. If a sign is unset the program exits.", "quantifier": "every consistent oriented diagram; for the two ways every connected plane diagram with at least one crossing and all assignments of signs", "why_tests_cant": "All diagrams and all 2^n assignments; that two assignments exist depends on the Euler characteristic (a chessboard colouring).", "anchors": ["src/pdcode.c:pd_is_alternating", "src/pdcode.c:pd_overstrand_pos", "src/pdcode.c:pd_understrand_pos"]}
{"id": "C62", "title": "Faces of an edge are found; copies are equal to the original", "statement": "On a plane diagram every edge lies on two different faces; pd_face_and_pos returns the only place where it occurs with positive orientation and the only place where it occurs with negative orientation, and pd_edge_on_face is true for exactly these two faces. pd_copy and pd_copy_newsize give a diagram with the same records, in buffers of the size asked for but never too small. Deviations shown: for a number that is on no face pd_face_and_pos returns without writing its four results (unless PD_VERBOSE); the copy of any diagram without crossings is the unknot with default tag and number.", "quantifier": "every connected plane diagram with complete faces and each of its edges; every diagram record within the limits of its buffers", "why_tests_cant": "All diagrams; that the two faces differ needs planarity.", "anchors": ["src/pdcode.c:pd_face_and_pos", "src/pdcode.c:pd_edge_on_face", "src/pdcode.c:pd_copy_newsize", "src/pdcode.c:pd_copy"]}
{"id": "C63", "title": "Adding and removing loops keeps diagrams valid", "statement": "On a plane diagram as pd_regenerate or a previous move leaves it, pd_R1_loop_addition at any side of any face returns a diagram that pd_ok accepts: it is again plane and connected, components, faces and hash are complete and in order, with one crossing, two edges and one face more. pd_R1_loopdeletion at a crossing with a loop always passes its own checks (pd_ok and the three counts) and returns a diagram accepted by pd_ok in the buffers it has cut to size, with one crossing, two edges, one face less and the same component tags; on the figure eight, and only there, it returns the unknot without crossings; without a loop it stops the program. Removing a loop which has just been added gives back the diagram, with its signs, up to renumbering.", "quantifier": "every plane diagram with records in order, every side of every face, every crossing; any sequence of such moves", "why_tests_cant": "All diagrams of all sizes; planarity after the surgery is a statement on the number of cycles of a permutation; that none of the assertions can fail is a statement on all inputs.", "anchors": ["src/pd_crossingmoves.c:pd_R1_loop_addition", "src/pd_crossingmoves.c:pd_R1_loopdeletion", "src/pd_crossingmoves.c:pd_compact_components"]}
{"id": "C64", "title": "The connected sum joins two diagrams along the chosen edges", "statement": "pd_connect_sum of two plane diagrams (records in order) along edge a of the first and edge b of the second passes all of its assertions and returns a plane diagram accepted by pd_ok. The result is the two diagrams next to each other in which a and b have exchanged their heads, up to the names of edges and crossings and the place at which a crossing starts: nothing else is changed. All signs are kept; if some crossing has a sign all directions are kept. It has as many crossings and edges as both together, one component less and two faces less. An edge out of range stops the program. A 0-crossing unknot, though accepted by pd_ok, is not handled: with one such argument the crossing table is read at PD_UNSET_IDX (undefined behaviour), with two the program stops.", "quantifier": "all pairs of plane diagrams of any size, all pairs of edges", "why_tests_cant": "All pairs of diagrams and edges; planarity of the result is a statement on the number of cycles of a permutation; that the renumbering tables are a permutation and never leave their buffers is a statement on all component shapes.", "anchors": ["src/pd_crossingmoves.c:pd_connect_sum"]}
{"id": "C65", "title": "Pushing two edges of a face across each other", "statement": "On a plane diagram (records in order), pd_R2_bigon_addition at two different places of any face returns a plane diagram accepted by pd_ok in the buffers it comes in. The two edges now cross twice within that face, forming a bigon: each becomes three edges in a row, with the side and the order of the two new crossings as the orientations of the two edges on the face tell, and nothing else is changed (up to the names of edges and crossings and the place at which a crossing starts). Old signs are kept, the new crossings have none. There are two crossings, four edges and two faces more and the same number of components. Deviations: the same place given twice stops the program on the Hopf link; a diagram without crossings is written out of bounds; the last argument (which edge goes over) is ignored.", "quantifier": "every plane diagram with records in order, every face, every two places on it", "why_tests_cant": "All diagrams, faces and pairs of sides in all four combinations of orientations; planarity is a statement on the number of cycles of a permutation.", "anchors": ["src/pd_crossingmoves.c:pd_R2_bigon_addition"]}
{"id": "C66", "title": "Turning a triangle over", "statement": "On a plane diagram (records in order), pd_R3_triangle_flip at a face with three edges, none of which is a loop, returns a plane diagram accepted by pd_ok in the buffers it comes in. Each of the three strands now meets its two crossings of the triangle in the other order, coming in and going out at the same places of each crossing as before; nothing else is changed (up to the names of edges and crossings and the place at which a crossing starts). All signs are kept, and there are as many crossings, edges, faces and components as before. A face with another number of edges gives NULL. Deviations: the three corners are not checked to be different, and on an accepted diagram with a loop among the sides the program stops; signs are not looked at, so the triangle of a trefoil is turned over although its strands are interlocked, which gives an unknot with three loops.", "quantifier": "every plane diagram with records in order, every face", "why_tests_cant": "All diagrams and all triangles with sides in any directions; planarity is a statement on the number of cycles of a permutation.", "anchors": ["src/pd_crossingmoves.c:pd_R3_triangle_flip"]}
{"id": "C67", "title": "What writing and reading a VECT file keeps of a curve", "statement": "plc_write of a curve (at least one component, each with a vertex and no more colours than vertices, constraints as plc_set_constraint leaves them) followed by plc_read gives a curve with the same components in the same order: the same vertices and colours to 16 digits, open and closed components kept (components of one or two vertices become open). Every vertex has the constraint it had, of the same kind and with its vectors to 6 digits, and the read list of constraints is again in order and without overlaps. If all numbers survive printing, components and constraints are exactly the same. This holds for at most 29 constraints and vertex lines of at most 79 characters. Deviations: with 30 constraints or more plc_read writes behind the end of its table (heap overflow: the new length is computed with % 10 for / 10); a longer vertex line is cut off by plc_write, and the file is rejected or the vertex silently gets another constraint; plc_read does not notice a missing VECT keyword.", "quantifier": "all curves of any number of components, vertices, colours and constraints, all number formats whose printed numbers are words that scan to the rounded number", "why_tests_cant": "All curves and constraint lists; the overflow depends on the number of constraints and the loss of constraints on the number of characters of a line, which tests with short numbers do not reach.", "anchors": ["src/plCurve.c:plc_write", "src/plCurve.c:plc_read", "src/plCurve.c:plc_fix_wrap"]}
{"id": "C68", "title": "Adding, dropping, copying components and their constraints", "statement": "plc_add_component (arrays long enough, place between 0 and the number of components) puts exactly the given vertices and colours at that place; components in front stay, the others move up by one unchanged. plc_drop_component takes out exactly one component; dropping what was just added gives the curve back. plc_copy gives the same curve. Arguments out of range stop the program; arrays too short are read behind their end. plc_resize_colorbuf gives a buffer of the size asked for with the old colours as far as they fit. plc_set_color changes colours only. Deviations: constraints are not renumbered. Adding a component anywhere but at the end moves the constraints of the later components to the component before them; after dropping any component of a curve whose last component has a constraint, plc_write goes out of bounds; growing the colours of a component with two or more leaves unwritten memory.", "quantifier": "all curves, components, places and constraint lists", "why_tests_cant": "All curves and positions; which component a constraint belongs to after a change is only seen with constraints on several components.", "anchors": ["src/plCurve.c:plc_add_component", "src/plCurve.c:plc_drop_component", "src/plCurve.c:plc_copy", "src/plCurve.c:plc_resize_colorbuf", "src/plCurve.c:plc_set_color"]}
{"id": "C69", "title": "Doubling the vertices of a curve", "statement": "plc_double_verts gives a curve of as many components with twice as many vertices each. Open and closed components stay so; the ends of open components stay, the vertices next to them and all other pairs are what mpsverts computes from a vertex and its two neighbours (cyclic on closed components). A single colour is kept; with a colour for each vertex both new vertices have it. Vertex 2v has the constraint of v, and 2v+1 that of v if v and v+1 are in the same run. Deviations: a component with two or more vertices and no colours (the default) gives undefined behaviour, any other number of colours than 0, 1 or one per vertex stops the program, the last two of many colours are never set, and of the constraints on the last vertex only a plane starting there reaches the last new vertex (an open curve held at both ends is held at one of them).", "quantifier": "all curves with any number of components, vertices and constraints, any spline arithmetic", "why_tests_cant": "All sizes, colourings and constraint lists; undefined behaviour on uncoloured curves need not show in a test.", "anchors": ["src/plCurve.c:plc_double_verts", "src/plCurve.c:mpsverts"]}
{"id": "C70", "title": "Pulling two strands off each other", "statement": "pd_R2_bigon_elimination on an accepted plane diagram and two different crossings stops the program unless two different strands pass both crossings one right after the other, and (unless both crossings have no sign) one of them passes over the other at both. If there are such strands it succeeds. A two-crossing diagram becomes one unknot per component with its tag. Otherwise, if what hangs on the two strands is connected elsewhere, the result is one diagram accepted by pd_ok with two crossings, four edges and two faces less, the same components and tags; everything else, signs included, stays where it was up to renumbering. If not, the result is two: for either strand the part of the diagram on its side with this strand pulled straight (accepted by pd_ok), or an unknot with the right tag if nothing else is on this side; their crossings together are two less. At a face with two edges the signs of the two crossings are opposite. Deviation: it is not checked that the strands bound a face with two edges; two crossings with equal signs are accepted, and the writhe changes by two.", "quantifier": "all plane diagrams, any number of crossings and components, all pairs of different crossings, all sorting algorithms", "why_tests_cant": "All diagrams; whether one or two diagrams come out, and which crossing, edge and component goes where, depends on the global shape of the diagram.", "anchors": ["src/pd_crossingmoves.c:pd_R2_bigon_elimination"]}
{"id": "C71", "title": "pd_simplify takes off all loops and nothing else", "statement": "pd_simplify of an accepted plane diagram with crossings comes back, after at most as many rounds as there are crossings. The result is the diagram with loops (faces with one edge) taken off one after the other, each step keeping signs, components and tags and everything else up to renumbering, until there are none: no edge of the result is at two neighbouring places of a crossing, no face has one edge, and pd_ok accepts it. It is the unknot without crossings exactly if a single crossing with two loops is left. A diagram with more than one component is never turned into an unknot. Deviation: for a diagram without crossings, and when the last crossing goes, the result is the unknot with tag A whatever the tag was.", "quantifier": "all plane diagrams, any number of crossings and components, all sorting algorithms", "why_tests_cant": "All diagrams; termination and the absence of loops at the end for every diagram, and what each of the steps does, cannot be sampled.", "anchors": ["src/pd_simplify.c:pd_simplify", "src/pd_crossingmoves.c:pd_R1_loopdeletion"]}
{"id": "C72", "title": "Linking numbers are kept by Reidemeister moves", "statement": "On plane diagrams with all signs set: pd_linking_number of two different components is the same before and after pd_R1_loopdeletion, pd_simplify and pd_R2_bigon_elimination (components matched by tag) and pd_R3_triangle_flip (components matched by their edges, strands being the same edge by edge). If pd_R2_bigon_elimination gives two diagrams or unknots, components that are not in one diagram any more had linking number 0. This holds although R2 elimination and R3 do not check that the move is one (C70_writhe_changes, C66_trefoil_unknotted). Deviation: the crossing which pd_R1_loop_addition adds has no sign, and pd_linking_number stops the program on the result.", "quantifier": "all plane diagrams with signs, all components, all places of the moves, all sorting algorithms", "why_tests_cant": "An invariant of all diagrams under all moves; it depends on which crossings the two strands share and with which signs.", "anchors": ["src/plcTopology.c:pd_linking_number", "src/pd_crossingmoves.c:pd_R1_loopdeletion", "src/pd_crossingmoves.c:pd_R2_bigon_elimination", "src/pd_crossingmoves.c:pd_R3_triangle_flip", "src/pd_simplify.c:pd_simplify"]}
{"id": "C73", "title": "pd_split_diagram makes a diagram of every piece", "statement": "On records of a diagram that may be in several pieces, each plane, with edges which meet no crossing being circles (the records in any order, components listing the edges along strands with different tags): pd_split_diagram stops at no assertion and leaves no buffer. It gives one output per piece, pieces being edges one can get to from each other through crossings. Output number k is an unknot with the tag of the circle, or a diagram which passes pd_ok, has exactly the crossings and edges of the piece, meeting in the same places with the same signs, and has the components of the piece with the tags they had. Together the outputs have all crossings, edges and components.", "quantifier": "all such records of any size, all sorting algorithms", "why_tests_cant": "The loop over pieces renumbers edges and crossings, sizes child buffers from edge counts and finds crossings as every fourth entry of a sorted list; that this is right depends on every crossing of a piece being met exactly four times and on the planarity of each piece (for the size of the component and face buffers).", "anchors": ["src/pd_splitdiagram.c:pd_split_diagram", "src/pd_splitdiagram.c:pdint_split_worker"]}
{"id": "C74", "title": "the diagram made from the crossings of a projection shows these crossings", "statement": "pd_code_from_plCurve turns the list of crossings found in a projection (component and parameter of the upper and of the lower strand, sign) into a diagram. If no two strands of a component are at the same or nearly the same parameter, every component has a crossing, and the crossings can be drawn in the plane: the result is a diagram which passes pd_ok. Its crossings are the crossings of the list with their signs, pd_overstrand and pd_understrand find the upper and the lower strand there, the edge out of a strand is the edge into the next strand along the component in the order of the parameters (cyclically), and its components are the components of the curve. There is only one such diagram, up to names. A curve of one component without crossings becomes a loop with one crossing. If a link has a component without crossings, the program ends. Two strands of a component at one parameter: the attempt is given up.", "quantifier": "all lists of crossings of any length on any number of components, all parameters, all sorting algorithms", "why_tests_cant": "The edges are found by a binary search over sorted strands with a tolerance, and written into crossing records at places which depend on upper, lower and sign; a wrong place for one of the cases gives a diagram which is often still accepted, but of another knot.", "anchors": ["src/plcTopology.c:divide_crossings_by_component", "src/plcTopology.c:assemble_pdcode", "src/plcTopology.c:crossing_strand_cmp", "src/plcTopology.c:crossing_reference_compare", "src/plcTopology.c:pd_code_from_plCurve"]}
{"id": "C75", "title": "The crossings of a projection are found", "statement": "findcrossings lists the crossings of the projection of a closed curve along the z axis. Every entry is a real crossing: the two points named by it are on edges without common vertices, inside of both edges, above each other, the upper one not lower than the lower one, and the sign is 1 exactly if turning from the upper to the lower strand goes to the left. No pair of points is listed twice. If the curve passes the test made by make_zprojection_generic, or no vertex is near the line through another edge, every pair of points of such edges which are above each other is in the list. make_zprojection_generic returns a curve which passes the test, with the same components and numbers of vertices, and the curve itself if it passes. pd_code_from_plCurve on a curve which passes makes the diagram of these crossings, or of a loop if there is just one component without crossings. The random axis has no effect on it.", "quantifier": "all curves with any number of components and vertices at real coordinates, all random numbers, all sorting algorithms", "why_tests_cant": "The place of a crossing comes from angles and the law of sines, upper and lower and the sign from four formulas in two branches, and the loops over pairs of edges leave out neighbours; tests compare a few curves and cannot show that no crossing is missed, doubled or given the wrong sign. Since the rotated copy is not used, no test on a good curve notices it.", "anchors": ["src/plcTopology.c:findcrossings", "src/plcTopology.c:locate_crossing", "src/plcTopology.c:segment_side", "src/plcTopology.c:tag_as_trouble", "src/plcTopology.c:make_zprojection_generic", "src/plcTopology.c:pd_code_from_plCurve", "src/vector.c:plc_angle"]}
{"id": "C76", "title": "Random polygons have the promised length and are closed", "statement": "plc_random_closed_polygon with n edges makes a polygon with n vertices whose length, closing edge included, is exactly 2; its last vertex is the origin. plc_random_closed_plane_polygon does so in the plane y = 0. The open versions have n + 1 vertices, start at the origin and have length 2. plc_random_ftc_internal makes an arc from the origin to (ftc, 0, 0) of the requested length (a length within 1e-8 of ftc is taken for ftc). All are made, and pass their own self checks, whenever the random vectors are independent (open: not all 0). With one edge a closed polygon is never made: the coordinates are not numbers and the self check accepts them.", "quantifier": "all numbers of edges, all random numbers, all lengths and failures to close, with and without self check", "why_tests_cant": "The length is a consequence of orthonormality of two random complex vectors through the Hopf map; the tests look at samples within a tolerance and at averages, and every sample is different.", "anchors": ["src/plcRandomPolygon.c:plc_random_closed_polygon_internal", "src/plcRandomPolygon.c:plc_random_open_polygon_internal", "src/plcRandomPolygon.c:plc_random_closed_plane_polygon_internal", "src/plcRandomPolygon.c:plc_random_open_plane_polygon_internal", "src/plcRandomPolygon.c:plc_random_ftc_internal", "src/plcRandomPolygon.c:hopfImap", "src/plcRandomPolygon.c:HermitianDot"]}
{"id": "C77", "title": "Random equilateral polygons are closed with unit edges", "statement": "plc_random_equilateral_closed_polygon with n from 3 to 3000 edges returns a polygon with n vertices whose edges, the closing one included, all have length 1, or ends at the assertion after 10000 rejected attempts; no other assertion fails and no coordinate is undefined. The accepted random numbers are its coordinates: the distances of the vertices from the first one are the sampled distances, and the triangles at these diagonals have the sampled dihedral angles. Some random numbers give a polygon for each n from 3 to 3000. With one or two edges a buffer is accessed outside of its bounds. plc_random_equilateral_open_polygon with n edges has edges of length 2/n.", "quantifier": "all n, all random numbers; for the assembly all distances satisfying the triangle inequalities and all angles", "why_tests_cant": "The polygon is built by n - 2 turns of a moving frame with square roots and divisions by sampled distances which may be tiny; samples do not reach the boundary of the triangle inequalities, and a wrong angle still gives a closed polygon with unit edges.", "anchors": ["src/plcRandomPolygon.c:fantriangulation_action_angle", "src/plcRandomPolygon.c:plc_random_equilateral_closed_polygon", "src/plcRandomPolygon.c:plc_random_equilateral_open_polygon", "src/vector.c:plc_normalize_vect"]}
{"id": "C78", "title": "Random self-avoiding polygons avoid themselves; plc_is_sap does not check it", "statement": "plc_random_equilateral_closed_self_avoiding_polygon returns a polygon with the requested number of vertices, with all edges of length 1, and any two different vertices at distance at least 1 within the tolerance (square at least 1 - 1e-9); otherwise it ends at an assertion, never with undefined coordinates. It ends the program for more than 25 edges, although the header allows 30. plc_is_sap returns true for every curve. The version with messages decides the property for one component, and returns false for every curve with two components.", "quantifier": "all n, all random numbers, all curves", "why_tests_cant": "The sampler rejects almost all trials, so tests see few polygons; plc_is_sap is only ever called on polygons which are self-avoiding, so its constant answer is never noticed.", "anchors": ["src/plcRandomSap.c:plc_random_equilateral_closed_self_avoiding_polygon", "src/plcRandomSap.c:plc_is_sap", "src/plcRandomSap.c:plc_is_sap_internal"]}
{"id": "C79", "title": "The random number generator has period 2^256 - 1; jump makes disjoint streams", "statement": "From the state made by plc_xoshiro_init for any seed, plc_xoshiro_next comes back to the same state after exactly 2^256 - 1 calls and not before, having visited every state which is not all zero; over this period every 64 bit number is returned 2^192 times, but for 0, which is returned once less. plc_xoshiro_jump has the effect of 2^128 calls of plc_xoshiro_next, so that streams of 2^128 numbers begun by up to 2^128 - 2 jumps have no state in common.", "quantifier": "all seeds, all nonzero states, all numbers of calls and jumps", "why_tests_cant": "Neither 2^256 nor 2^128 calls can be made; a wrong shift, rotation or digit of the jump polynomial still gives numbers which look random, with an unknown and possibly short period or with overlapping streams.", "anchors": ["src/plcRandomSap.c:plc_xoshiro_next", "src/plcRandomSap.c:plc_xoshiro_jump", "src/plcRandomSap.c:plc_xoshiro_init"]}
{"id": "C80", "title": "Rotating, folding, translating, scaling and projecting a curve do what geometry says", "statement": "plc_rotate turns every vertex around the axis by the given angle, in the direction of the right hand, keeping distances along and from the axis and all distances of vertices; plc_rotation_matrix and plc_rotate_vect are the same rotation, and the symmetry built from the matrices carries over to the rotated curve. plc_pfm turns exactly the vertices strictly between the two given ones around the line through them and keeps the lengths of all edges. plc_translate and plc_scale move and stretch as said and carry constraints along, so that a curve which obeyed them still does. plc_project moves every vertex to the nearest point of the plane. plc_random_rotate is a rotation which takes the axis to the positive vertical direction. Deviations: plc_rotate does not rotate constraints, so a curve may violate them afterwards; plc_random_rotate with the axis (0,0,-1) leaves the curve as it is; plc_pfm with the same vertex twice ends the program although there is a return for this case; vertices nearer to the axis than 2^-52 are left.", "quantifier": "all curves, axes, angles, factors, vectors, vertices (doubles as real numbers)", "why_tests_cant": "A test compares coordinates for a few axes and angles; that lengths and constraints are kept, and the sense of rotation for every axis, are statements about all of them. The failing axis has probability zero in random tests.", "anchors": ["src/plCurve.c:plc_rotate", "src/plCurve.c:plc_pfm", "src/plCurve.c:plc_translate", "src/plCurve.c:plc_scale", "src/plCurve.c:plc_project", "src/plCurve.c:plc_random_rotate", "src/vector.c:plc_rotate_vect", "src/symmetries.c:plc_rotation_matrix"]}
{"id": "C81", "title": "plc_check_cst measures the violation of constraints, plc_fix_cst removes it with the smallest move", "statement": "For a curve whose constraints are in range and have nonzero directions, plc_check_cst returns the largest distance of a constrained vertex from the nearest point its constraint allows; the result is 0 exactly if all constraints are obeyed. plc_fix_cst, for a list of constraints as the library keeps it, ends with a curve which obeys all constraints (plc_check_cst is 0), every constrained vertex at the allowed point nearest to where it was, all others unmoved, constraints unchanged.", "quantifier": "all curves and lists of constraints (fixed, line, plane; doubles as real numbers)", "why_tests_cant": "Nearest points on all lines and planes are a statement about infinitely many points; a projection with a wrong normalization is right for unit vectors, which is what tests use.", "anchors": ["src/plCurve.c:plc_check_cst", "src/plCurve.c:plc_fix_cst", "src/plCurve.c:Closest_line_point", "src/plCurve.c:Closest_plane_point"]}
{"id": "C82", "title": "Lengths, diameter, radius of gyration, chords, angles and curvature of a curve are what they are called", "statement": "plc_arclength returns the lengths of the components and their sum, closing up closed components; plc_subarc_length the length of the arc between two vertices, the shorter one on a closed component; plc_edgelength_stats the largest, smallest, mean and mean square edge length; plc_pointset_diameter the largest distance of two vertices; plc_center_of_mass the mean of the vertices and plc_gyradius half the mean squared distance over all pairs; plc_mean_squared_chordlengths the mean over vertices the given number of steps apart; plc_turning_angle the angle between successive edges with wraparound; plc_MR_curvature 2 tan(angle/2) over the shorter edge. plc_s returns the arclength position when earlier components are closed. Deviations: plc_s counts the last edge of every earlier open component twice; chords with a skip larger than the number of vertices read outside of the buffer (closed) or divide 0 by 0 (open); plc_turning_angle returns 0 when the product of the two edge lengths is below 1e-12, and plc_MR_curvature ends the program there.", "quantifier": "all curves, components, vertices, skips (doubles as real numbers)", "why_tests_cant": "Tests compare single values on a few curves with a tolerance; that the faster formula for the radius of gyration is the mean over all pairs, that the arc is the shorter one for every pair, and that the shortcut of the diameter misses no pair are statements about all curves.", "anchors": ["src/plCurve.c:plc_arclength", "src/plCurve.c:plc_subarc_length", "src/plCurve.c:plc_s", "src/plCurve.c:plc_edgelength_stats", "src/plCurve.c:plc_pointset_diameter", "src/plCurve.c:plc_center_of_mass", "src/plCurve.c:plc_gyradius", "src/plCurve.c:plc_mean_squared_chordlengths", "src/plCurve.c:plc_turning_angle", "src/plCurve.c:plc_MR_curvature"]}
{"id": "C83", "title": "plc_delete_arc removes exactly the given arc", "statement": "plc_delete_arc(L,cp,vt1,vt2) with both vertices on the component returns a curve without constraints in which exactly the vertices from vt1 to vt2, both included, are gone: of an open component the parts before and after remain, in this order, as open components at its place (none, one or two); of a closed component the other vertices remain in order, beginning after vt2, as one open component, also if the arc goes around through vertex 0; a component without vertices left is removed; all other components are unchanged. With vt2 < vt1 on an open component nothing is deleted. Deviations: the colours of the component are not shortened, so after deleting a part of a component with one colour per vertex, plc_copy and a second plc_delete_arc end the program; vertices outside of a closed component may lead to accesses outside of memory.", "quantifier": "all curves, components, pairs of vertices", "why_tests_cant": "Each combination of open/closed, ends touched, and wrapping has its own branch with its own index arithmetic; the interplay with colours shows only on a second call.", "anchors": ["src/plCurve.c:plc_delete_arc", "src/plCurve.c:plc_copy"]}
{"id": "C84", "title": "Nearest-neighbour searches return a nearest point", "statement": "plc_nearest_neighbor returns an index below n such that no other of the n points is nearer to the query point, for small buffers (exhaustive search) and large ones (sorted search with early stopping), without precomputed data, with data of another buffer (which is reported as stale and replaced) and with the data left by any number of earlier searches of the same points; plc_nearest_vertex returns a vertex of the curve together with its component and index, and no vertex of any component is nearer. Deviations: searching fewer than 5000 and later at least 5000 points of one buffer with the same data reads through a NULL pointer; if the points change in place the data is not recognised as stale and the answer can be wrong; a bounding box of 2^31 or more is converted to int (undefined); max_dimension compares whole numbers and so does not always find the longest side; a curve without components is read outside of memory.", "quantifier": "all buffers, curves, query points, all histories of precomputed data", "why_tests_cant": "The early-stopping search is right only because of an inequality between coordinate differences and distances along a sorted list; tests sample query points, and failures of the cached data need particular call histories.", "anchors": ["src/nearest_neighbor.c:plc_nearest_neighbor", "src/nearest_neighbor.c:plc_nearest_vertex", "src/nearest_neighbor.c:exhaustive_nearest_neighbor", "src/nearest_neighbor.c:max_dimension"]}
{"id": "C85", "title": "octrope_minrad is the least radius over all bends, and its list of locations is right", "statement": "octrope_minrad returns the minimum over all vertices with a noticeable turning angle t, and over the two edges at the vertex, of (length of the edge)/(2 tan(t/2)), or DBL_MAX if there is none; around closed components, inside of open ones. Every location it lists is such a vertex with its edge and radius, within the cutoff (or within epsilon of the minimum), and there are at most mr_size; with room for two per vertex, all of them are listed, each once. Deviation: a vertex where the curve folds back onto itself (t = pi, radius 0) is left out like a straight one, so a curve with a fold can be reported as arbitrarily round.", "quantifier": "all curves with at least two vertices per component, all cutoffs, epsilons and sizes of the list", "why_tests_cant": "The list is built against a moving bound and compacted in place by overwriting entries from the end; whether entries are lost or duplicated depends on the order of radii along the curve.", "anchors": ["src/minrad.c:octrope_minrad"]}
{"id": "C86", "title": "find_poca finds the closest points of two edges", "statement": "For two edges of positive length find_poca returns two parameters in [0,1] and the distance of the two points there; no two points of the edges are closer. If the edges span a parallelogram of area below about 3e-13 without being parallel, the distance is too large by at most twice that area divided by the length of the second edge. Deviations: for two edges of length 1e-7 crossing at a right angle half of an edge length is returned as their distance instead of 0; with an edge of length zero nothing that is returned is a number.", "quantifier": "all pairs of edges in space", "why_tests_cant": "Six regions of the parameter square with clamping in two different orders, and two thresholds on the determinant; failures are at region boundaries and near parallel edges.", "anchors": ["src/octrope.c:find_poca"]}
{"id": "C87", "title": "octrope_struts finds the struts: shortest length, list, and room", "statement": "Given a curve without edges of length zero, the list of its edges and an octree of them, the search ends, and: no strut (two points, each as near to the other as it can get by moving along the edges it is on) between edges that are not parallel and at least pi_count edges apart along the curve is shorter than the reported length; the reported length is that of a strut or the start value; everything listed is a strut, at most as long as the cutoff (or the shortest plus epsilon), no two for the same pair of edges, and never more than there is room for; if there is room for n(n-1)/2, or a cutoff and room for all struts within it, every strut within the bound is listed. pi_count is two or the largest number of turning angles that together cannot exceed pi. Deviation: if no vertex turns by more than pi/2^31 (straight arcs) pi_count is computed by dividing by zero and converting an infinite or too large double to int, which is undefined.", "quantifier": "all curves, all octrees of their edges, all cutoffs, epsilons and room sizes", "why_tests_cant": "The pruning by boxes, corners, current shortest strut and list overflow interacts; a wrong bound drops struts only for particular positions in particular boxes, and a list with too little room is compacted in place while the search goes on.", "anchors": ["src/octrope.c:octrope_struts", "src/octrope.c:check_boxes", "src/octrope.c:box_intersects", "src/octrope.c:cleanup_strutlist"]}
{"id": "C88", "title": "octrope's sorts sort", "statement": "sort_varr and sort_oct, called for a range of the array, rearrange exactly that range so that it is ascending, for any order of the input including many equal elements, and terminate; nothing outside of the range is changed. sort_varr reads nothing outside of the range. Deviation: sort_oct, sorting twelve or more edges all having the same tag (as with octrope_set_levels(1)), reads the element in front of the array; what it reads there makes no difference to the result.", "quantifier": "all arrays, all ranges, all strict weak orders", "why_tests_cant": "A hand-written quicksort with median of three, a special scan past elements equal to the pivot and an insertion sort for short ranges; failures depend on patterns of equal elements at range ends.", "anchors": ["src/octrope.c:sort_varr", "src/octrope.c:sort_oct"]}
{"id": "C89", "title": "build_octree builds an octree, and octrope_struts finds the struts", "statement": "For every curve with at least one edge and any requested number of levels, build_octree succeeds without reporting an inconsistency and leaves all edges, each once, in an octree: every box contains its edges, the boxes inside a box split its edges, the root has all of them; depth between 1 and 21 and not more than requested. So octrope_struts, for every curve with edges of positive length which turns somewhere, reports a shortest length no strut is below, and a list of exactly the struts within the bound as far as there is room (C87, without assumptions on the octree). A negative cutoff or epsilon is refused. Deviation: a curve without edges shifts 1 by -1, which is undefined.", "quantifier": "all curves, requested levels, cutoffs, epsilons, room sizes", "why_tests_cant": "The tree is grown along a swath of open boxes from bit-interleaved tags in two words; mistakes at the border of the words (level 10), for equal tags or at the last edge drop edges from the tree and so struts from the list, only for particular sizes.", "anchors": ["src/octrope.c:build_octree", "src/octrope.c:octrope_struts", "src/octcnv4.h:bin_to_oct"]}
{"id": "C90", "title": "Skipping pi_count edges loses no strut", "statement": "If the curve is nowhere folded back onto itself (no turning angle is pi), two points of the curve on different edges which form a strut are on edges at least pi_count apart along the curve: the pairs octrope_struts never looks at have none. So what octrope_struts reports is about all struts between two edges that are not parallel: none is shorter than the reported length, and with room all of them within the bound are listed. Deviation: at a fold two adjacent edges overlap, which is never noticed.", "quantifier": "all curves with edges of positive length", "why_tests_cant": "The bound on the number of skipped edges is justified by a theorem on the total turning of an arc (less than pi leaves no doubly critical chord); one too many skipped edges loses a strut only for special curves.", "anchors": ["src/octrope.c:octrope_struts", "src/octrope.c:check_boxes"]}
{"id": "C91", "title": "octrope: thickness and ropelength are those of the shortest strut and the least radius", "statement": "For every curve with edges of positive length which turns but is nowhere folded there are the length S of a shortest strut and the least radius R of a bend such that, whatever results are asked for and whatever the cutoffs, epsilons and list sizes, octrope reports thickness min(S/2, R/lambda) (S/2 for lambda = 0), ropelength = length / thickness (DBL_MAX for thickness 0), the length of the curve, R (DBL_MAX for lambda = 0), and the list and number of struts of octrope_struts; octrope_thickness, octrope_ropelength, octrope_poca return these; octrope_strut_ends gives the two points of a strut. The cutoff never influences thickness and ropelength. Deviations: if the shortest strut is longer than the cutoff, DBL_MAX is reported as its length although the thickness is right; with a negative cutoff or epsilon an uninitialised length is used; with a negative lambda octrope_thickness and octrope_ropelength return an uninitialised variable.", "quantifier": "all curves, all combinations of results, cutoffs, epsilons, list sizes, lambda", "why_tests_cant": "Results are computed only if some combination of pointers is given, and the shortest strut is recomputed if the list came out empty; a missing case leaves a wrong value only for particular combinations of arguments.", "anchors": ["src/octrope.c:octrope", "src/octrope.c:octrope_thickness", "src/octrope.c:octrope_ropelength", "src/octrope.c:octrope_poca", "src/octrope.c:octrope_curvelength", "src/octrope.c:octrope_strut_ends"]}
{"id": "C92", "title": "Symmetrizing over a group of symmetries gives the nearest symmetric curve", "statement": "If the symmetries of L->G act as a finite group on space (by their matrices) and on the vertices (by their targets), plc_symmetrize replaces every vertex by the mean over the group of the images of the vertices of its orbit carried back, changes nothing else, and the result is exactly symmetric; of all symmetric placements of the vertices it is the one with the least sum of squared distances (for isometries); no vertex moves by more than the largest error of a symmetry, and a symmetric curve is not changed. plc_symmetrize_variation does the same to a buffer of vectors indexed by plc_vertex_num. plc_symmetry_check and plc_symmetry_group_check report the largest error, which is 0 exactly for symmetric curves; without a group nothing happens. Deviation: plc_symmetrize does not renew the copies vt[-1] and vt[nv] of a closed component.", "quantifier": "all curves, all finite groups acting, all sizes", "why_tests_cant": "The loop overwrites vertices while others are still to be averaged; that the orbits are disjoint and every vertex is averaged from the original positions depends on the group laws, not on one example.", "anchors": ["src/symmetries.c:plc_symmetrize", "src/symmetries.c:plc_symmetrize_variation", "src/symmetries.c:plc_symmetry_check", "src/symmetries.c:plc_symmetry_group_check"]}
{"id": "C93", "title": "Symmetries are built to nearest vertices, and groups of rotations and reflections are groups", "statement": "plc_build_symmetry sends every vertex to a vertex nearest to its image, each vertex being the target of exactly one, and fails only if two vertices share a nearest one; if the matrix is an isometry carrying every vertex to within d of a vertex and vertices are more than 2d apart it sends each vertex to that one. plc_compose_symmetries composes matrices and targets, and errors add. If the rotations by 2 pi k / n (the reflection) carry every vertex to within d of a vertex and vertices are more than 3d apart, plc_rotation_group (plc_reflection_group) returns symmetries acting as the cyclic group of order n (of order 2), and plc_symmetrize then moves no vertex by more than d and leaves a curve the rotations (the reflection) carry exactly to itself. Deviations: plc_rotation_group with n <= 0 writes through NULL; an axis shorter than DBL_EPSILON stops the program; plc_coordplanes_reflection_group checks only two of its four symmetries for NULL, and the four are not closed under composition, so that symmetrizing over them need not give a symmetric result.", "quantifier": "all curves with at least one vertex per component, all axes, all n, all tolerances d", "why_tests_cant": "That the nearest targets of n separately built symmetries fit together to an action is a statement about all pairs of group elements and all vertices, with perturbed positions.", "anchors": ["src/symmetries.c:plc_build_symmetry", "src/symmetries.c:plc_compose_symmetries", "src/symmetries.c:plc_rotation_group", "src/symmetries.c:plc_reflection_group", "src/symmetries.c:plc_coordplanes_reflection_group"]}
{"id": "C94", "title": "Polygons made from lengths and dihedral angles have these lengths and angles", "statement": "For every triangulation of an n-gon, lengths of at least 1e-8 for its edges and diagonals, and any dihedral angles, tsmcmc_embed_polygon returns NULL exactly if some triangle violates a triangle inequality; otherwise it returns a closed polygon with n vertices whose edges and diagonals have the given lengths. tsmcmc_compute_edgelengths and tsmcmc_compute_diagonals give these lengths back, and tsmcmc_compute_dihedral_angles gives the angles back, all marked as defined, if they are in [0, 2 pi) and no triangle is thinner than DBL_EPSILON. plc_dihedral_angle is the angle in [0, 2 pi) by which the second triangle has to be turned around the diagonal to come to the side of the first, and is marked undefined exactly for degenerate triangles or diagonals. Deviation: a diagonal of length 0 gives vertices which are not numbers.", "quantifier": "all triangulations, all lengths, all angles, all n", "why_tests_cant": "Every triangle is placed in a frame carried along the tree of triangles, and the orientation of each step depends on all steps before; only an induction over all trees shows lengths and signs of angles right everywhere.", "anchors": ["src/plcToricSymplecticTriangulation.c:tsmcmc_embed_polygon", "src/plcToricSymplecticTriangulation.c:tsmcmc_compute_dihedral_angles", "src/plcToricSymplecticTriangulation.c:tsmcmc_compute_diagonals", "src/plcToricSymplecticTriangulation.c:tsmcmc_compute_edgelengths", "src/vector.c:plc_dihedral_angle"]}
{"id": "C95", "title": "Systems of chords become triangulations, and the check accepts them", "statement": "For every n of at least 3 and every list of n - 3 diagonals of the n-gon, no two equal and no two crossing, tsmcmc_generate_triangulation returns a triangulation of the polygon: a tree of n - 2 triangles from edge 0 on in which every vertex, edge and diagonal is in its place, consistently oriented, diagonal k having the ends of chord k. tsmcmc_triangulation_ok accepts every such triangulation, so that fan, spiral, teeth and random triangulations are returned for all n (from 4 on for spiral and teeth) and all random numbers without a failed assertion. Deviation: tsmcmc_triangulation_ok also accepts records which are not triangulations, as it does not check that the triangle given as daughter at a side is at that side.", "quantifier": "all n, all triangulating systems of chords, all sequences of random numbers", "why_tests_cant": "The triangles are found by looking at the neighbours of a chord in sorted tables at its two ends, and the number of systems of chords grows exponentially; that the neighbours always meet in a vertex and that the recursion uses every chord once needs a counting argument for all non-crossing systems.", "anchors": ["src/plcToricSymplecticTriangulation.c:tsmcmc_generate_triangulation", "src/plcToricSymplecticTriangulation.c:tsmcmc_build_vitable", "src/plcToricSymplecticTriangulation.c:tsmcmc_build_triangulation_worker", "src/plcToricSymplecticTriangulation.c:tsmcmc_triangulation_ok"]}
{"id": "C96", "title": "Steps in the moment polytope stay in it, and confined polygons stay confined", "statement": "For every triangulation of an n-gon, lengths of edges and diagonals which obey all triangle inequalities, every direction and every random number, tsmcmc_moment_polytope_step draws its step from exactly the numbers of magnitude at most 1e12 which keep all inequalities whose slack changes with speed at least 1e-8; the new lengths obey all triangle inequalities if no slack changes slower without being constant, and up to 1e-8 times the step otherwise. tsmcmc_confined_moment_polytope_step keeps all diagonals at most as long as the radius likewise. tsmcmc_diagonals_ok and tsmcmc_confined_diagonals_ok return true exactly if the inequalities hold (and no diagonal is longer than the radius). The lengths computed from any polygon obey the inequalities; the chain of tsmcmc_confined_equilateral_expectation, from the folded triangle on, fails no check, and the polygons made from its lengths have edges of length 1 and all vertices within the radius of the first. Deviation: slow directions are not bounded at all, so that a step may leave the polytope by far.", "quantifier": "all triangulations, all n, all lengths, all directions, all random numbers, all lengths of chains", "why_tests_cant": "The step is a random number from an interval given by 3(n - 2) inequalities met along a tree; a missing or wrongly signed inequality is only noticed if it is the one which bounds the step, and confinement has to hold after any number of steps.", "anchors": ["src/plcToricSymplectic.c:tsmcmc_moment_polytope_step", "src/plcToricSymplectic.c:tsmcmc_confined_moment_polytope_step", "src/plcToricSymplectic.c:tsmcmc_diagonals_ok", "src/plcToricSymplectic.c:tsmcmc_confined_diagonals_ok", "src/plcToricSymplectic.c:tsmcmc_folded_triangle", "src/plcToricSymplectic.c:tsmcmc_confined_equilateral_expectation"]}
{"id": "C97", "title": "Permutation steps permute the edges of the polygon and keep all edge lengths", "statement": "For every triangulation of an n-gon, lengths of at least 1e-8 which obey the triangle inequalities, with all edges of length 1 except possibly the first, any dihedral angles and every shuffle, tsmcmc_edgepermute_step ends normally: the new diagonal lengths and dihedral angles are those of a closed polygon whose edge vectors are a permutation of those of the polygon embedded before, the first edge staying first if its length is not 1; the edge lengths are unchanged, and the triangle inequalities hold for the new lengths. If an edge other than the first has another length the program ends with an error. Deviations: the result of the embedding is not checked for NULL, so lengths which violate a triangle inequality make the step read from the null pointer; and edges within 1e-8 of 1 are accepted as equilateral although permuting them can violate the final check of edge lengths, which ends the program.", "quantifier": "all triangulations, all n, all lengths and angles, all shuffles", "why_tests_cant": "The closing edge is never stored but has to come out as the last shuffled vector, for every shuffle and every polygon; this and that the triangle inequalities hold afterwards is a statement about all polygons.", "anchors": ["src/plcToricSymplectic.c:tsmcmc_edgepermute_step", "src/plcToricSymplectic.c:edgelengths_match_equilateral_pattern", "src/plcToricSymplectic.c:edgelengths_match_ftc_pattern"]}
{"id": "C98", "title": "LU decomposition solves linear systems", "statement": "For every 3x3 matrix A with determinant not 0, lu_decmp returns a decomposition: up to the permutation of rows in index, whose sign is d, A is the product of a lower triangular matrix with ones on the diagonal and an upper triangular one, and d times the product of the pivots is the determinant. With it solve_linear returns, for every b, the one vector x with A x = b as multiplied by plc_matrix_vector_multiply. lu_decmp returns NULL exactly if A has a row of zeros. plc_matrix_matrix_multiply is composition. Deviation: for every other singular matrix a decomposition is returned without any report, although there is a right hand side for which no vector is a solution.", "quantifier": "all matrices, all right hand sides", "why_tests_cant": "Pivoting takes a different path, with another bookkeeping of rows, for different matrices; that the answer is right on every path and for every matrix is a statement about all of them.", "anchors": ["src/matrix.c:lu_decmp", "src/matrix.c:solve_linear", "src/matrix.c:plc_matrix_vector_multiply", "src/matrix.c:plc_matrix_matrix_multiply"]}
{"id": "C99", "title": "The buffered estimator of integration errors agrees with the direct one", "statement": "ips_value returns the mean of the data and 1.96 sigma/sqrt(n), where sigma squared is gamma_0 + 2 gamma_1 + 2 (Gamma_1 + ... + Gamma_K) with the autocovariances of the data about their mean and the initial sequence of positive Gamma_k, or gamma_0 if this is negative. For every sequence of samples and every buffer size of at least 2, geyer_ips_add and geyer_ips_value give the mean of all samples; if *ok is true and the error is a number, it is the one ips_value computes from all samples, although only the last few samples are kept; if *ok is false the sum was cut off. Deviations: with 1, 2 or 3 samples geyer_ips_value writes to a buffer of size 0; with a buffer of size 1 it reads out of bounds; if the estimated variance is negative the error is NaN with *ok true, where ips_value returns a number; for equal samples *ok is false; *ok is not set if there are no samples.", "quantifier": "all sequences of samples, all buffer sizes", "why_tests_cant": "Covariances are split over any number of buffers of any size, with circular buffers for the first and last samples; that no pair is lost or counted twice is a statement about all numbers of samples, buffer sizes and lags.", "anchors": ["src/geyer_estimators.c:geyer_ips_add", "src/geyer_estimators.c:geyer_ips_value", "src/geyer_estimators.c:ips_sigma_estimator_with_gammas", "src/geyer_estimators.c:sample_mean"]}
{"id": "C100", "title": "Splines pass through the vertices with continuous first and second derivatives, and resampling takes equally spaced points of them", "statement": "For every component whose adjacent vertices are more than DBL_EPSILON apart, plc_convert_to_spline gives a cubic spline: the polynomials evaluated on the segments fit together to a curve through all vertices at their arclengths with continuous first and second derivatives, with the given tangents at the ends (the same at both ends for closed components), and no division is by zero. plc_sample_spline and plc_spline_tangent return its points and derivatives: at every parameter for closed components, reduced to the length, and from 0 to the length for open ones. plc_convert_from_spline with nv vertices ends normally and returns the nv points which divide the parameter interval into equal parts, with interpolated colors. Deviations: sampling an open component beyond its length but below the length with the extra edge of plc_fix_wrap reads a second derivative which was never set; a closed component with one color per vertex makes plc_convert_from_spline read beyond the last color; an open component with one vertex makes plc_convert_to_spline read out of bounds.", "quantifier": "all components, all vertices, all tangents, all parameters, all numbers of new vertices", "why_tests_cant": "That the solution of the tridiagonal system makes derivatives agree at every vertex is an identity for all lengths and positions; that the searches always find the right segment holds for all parameters.", "anchors": ["src/splines.c:plc_convert_to_spline", "src/splines.c:plc_convert_from_spline", "src/splines.c:plc_sample_spline", "src/splines.c:plc_spline_tangent", "src/splines.c:evaluate_poly"]}
{"id": "C101", "title": "Erasing edges and crossings leaves a diagram whose records agree", "statement": "pd_edge_delete on an edge with both ends at crossings empties exactly the two places, unsets the edge record, the two signs, and every mention of the edge in components and faces. pd_crossing_delete takes the two strands of a crossing out of it: the edge going out starts where the edge coming in started and replaces it at that crossing, an edge without continuation gets a loose end, the crossing is empty, and only the edges that were used up disappear from the components. In both cases edge and crossing records that are still set agree with each other.", "quantifier": "for every diagram with any set of holes, every edge with two ends, and every crossing without small loops whose incoming edges do not start loose", "why_tests_cant": "The calls are made in sequences on partially erased diagrams, and the number of possible patterns of holes, loops and splices is unbounded; a wrong end found at a loop shows up only in rare diagrams.", "anchors": ["src/pd_deletions.c:46-268", "src/pd_deletions.h:14-38", "src/pd_tangles.c:2399-2525"]}
{"id": "C102", "title": "Printed polynomials can be told apart and fit in their buffers", "statement": "poly_to_mathematica and poly_to_latex write at most 128 characters for each monomial, so never outside their buffer, and two polynomials (lists of monomials) with the same text are equal: no sign, coefficient 1 or power 0 that is left out makes the text ambiguous. polynomial_to_lmpoly, in contrast, writes outside its buffer for every polynomial in which all powers of l, or all powers of m, are the same, such as the polynomial 1 of the unknot.", "quantifier": "for all lists of monomials whose coefficients and powers are values of int other than INT_MIN, of any length; for the refutation all such polynomials and all correct sorts", "why_tests_cant": "Ambiguity is a statement about all pairs of polynomials, and a text compared with an expected one says nothing about others; writing beyond an allocation of zero bytes usually goes unnoticed.", "anchors": ["src/polynomials.c:238-306", "src/polynomials.c:397-611"]}
{"id": "C103", "title": "The output of lmpoly is read with the right powers", "statement": "For the text that lmpoly prints for any rows of coefficients (one row for each power of m, the row of m^0 in an extra pair of brackets, the coefficient of l^0 of each row in brackets), lmpoly_to_polynomial returns exactly the monomials with coefficient other than 0, each with its powers of l and m, sorted. It needs room for them: the buffer has one monomial for each space of the text (after the outer brackets have become spaces), and with more monomials than that it writes outside.", "quantifier": "for all numbers of rows before and after that of m^0, all lengths of the rows and all coefficients that are values of int other than INT_MIN, with or without a final space", "why_tests_cant": "The powers are found by counting brackets, spaces and row ends; tests compare a few knots, while the count of spaces is an overestimate only for some shapes of rows.", "anchors": ["src/polynomials.c:57-76", "src/polynomials.c:78-236"]}
{"id": "C104", "title": "A polynomial written for lmpoly is read back unchanged", "statement": "If polynomial_to_lmpoly writes a polynomial inside its buffer, the powers of the monomials are distinct, no coefficient is 0, and there is a monomial with m^0, then lmpoly_to_polynomial applied to the text gives the same monomials, provided the text has at least as many spaces as there are monomials. Without a monomial with m^0, as for links of two components, no row is marked as that of m^0 and the powers of m come back different.", "quantifier": "for all such polynomials of any length, with gaps between the powers of l and of m of any size, and all correct sorts; the refutation for the polynomial of the Hopf link", "why_tests_cant": "lmpoly_check compares the two texts for the knots tried; the placeholders for missing powers of l, missing rows and rows that do not reach l^0 lead to many shapes, and tests with knots never meet a polynomial without m^0.", "anchors": ["src/polynomials.c:397-611", "src/polynomials.c:614-629", "src/polynomials.c:78-236"]}
{"id": "C105", "title": "Polynomials in the form of KnotTheory are read correctly", "statement": "For the text of any monomials in the form 'c a^l z^m' with ' + ' between them, KnotTheory_to_polynomial returns these monomials, sorted by the powers of l and m.", "quantifier": "for all non-empty lists of monomials with coefficients and powers that are values of int other than INT_MIN", "why_tests_cant": "The number of monomials is counted from the signs + and the parts are cut by strtok; a table of knots exercises few shapes, and a structure written beyond an allocation of the size of a pointer goes unnoticed with common allocators.", "anchors": ["src/polynomials.c:631-690"]}
{"id": "C106", "title": "Operations on vectors of any dimension", "statement": "For two vectors of the same dimension, sums, differences, products by components, multiples and combinations are new vectors with the expected values and leave the arguments unchanged; nplc_distance is the Euclidean distance and nplc_sq_dist its square; nplc_angle lies in [0,pi] and has the cosine A.B/(|A||B|); normalizing gives length 1.", "quantifier": "for all dimensions, all contents of memory and all allocated vectors, also when they share storage", "why_tests_cant": "Dimensions and values are unbounded, the angle is computed by a sum over pairs of coordinates, and changes to the storage of an argument are seen only by a caller that uses it again.", "anchors": ["src/nvector.c:45-52", "src/nvector.c:97-370"]}
