{
 "claims": [
  {
   "property": "C01",
   "status": "proved",
   "theorems": [
    "Plc.Pack.C01_bitstring_roundtrip",
    "Plc.Pack.C01_empty_string_dies"
   ],
   "note": "Nonempty strings; the empty string falls through to assert(1==0), proved separately."
  },
  {
   "property": "C02",
   "status": "proved",
   "theorems": [
    "Plc.Pack.C02_index_field"
   ],
   "note": "For n >= 1 crossings."
  },
  {
   "property": "C03",
   "status": "proved",
   "theorems": [
    "Plc.Pack.C03_signed_roundtrip",
    "Plc.Pack.C03_no_crossings_faults"
   ],
   "note": "Up to the final pd_regenerate, for which see C57; crossing count below 2^31, at least one crossing."
  },
  {
   "property": "C04",
   "status": "partial",
   "theorems": [
    "Plc.Pack.C04_unsigned_roundtrip_partial",
    "Plc.Pack.C04_unset_signs_survive_false"
   ],
   "note": "The claim is false of the code: signs come back negative. Proved negation, and what survives."
  },
  {
   "property": "C05",
   "status": "proved",
   "theorems": [
    "Plc.PermM.C05_perm_iterator",
    "Plc.PermM.C05_nperms",
    "Plc.PermM.C05_nperms_wraps",
    "Plc.PermM.C05_zero_letters_undefined"
   ],
   "note": "At least one letter; pd_nperms exact up to 12 letters and shown to wrap at 13."
  },
  {
   "property": "C06",
   "status": "partial",
   "theorems": [
    "Plc.PermM.C06_compose",
    "Plc.PermM.C06_compose_assoc",
    "Plc.PermM.C06_compose_unit",
    "Plc.PermM.C06_inverse",
    "Plc.PermM.C06_period_partial",
    "Plc.PermM.C06_period_failsafe",
    "Plc.PermM.C06_period_unrestricted_false",
    "Plc.PermM.C06_results_ok"
   ],
   "note": "Composition, unit, associativity, inverse are proved; pd_perm_period is proved for orders below 10000, and the failsafe makes the unrestricted claim false (witness on 41 letters)."
  },
  {
   "property": "C07",
   "status": "proved",
   "theorems": [
    "Plc.PermM.C07_perm_ok_exact",
    "Plc.PermM.C07_perm_ok_reads_past_table"
   ],
   "note": "Exact for every perm whose table index is in range; index equal to the table size is shown to read past the table."
  },
  {
   "property": "C08",
   "status": "proved",
   "theorems": [
    "Plc.Iters.C08_dihedral_iterator",
    "Plc.Iters.C08_zero_letters_undefined"
   ],
   "note": "At least one letter; zero letters shown undefined."
  },
  {
   "property": "C09",
   "status": "proved",
   "theorems": [
    "Plc.Iters.C09_cyclic_iterator"
   ],
   "note": "At least one letter."
  },
  {
   "property": "C10",
   "status": "proved",
   "theorems": [
    "Plc.Iters.C10_orientation_group"
   ],
   "note": ""
  },
  {
   "property": "C11",
   "status": "partial",
   "theorems": [
    "Plc.Iters.C11_dihedral_ok_exact_false",
    "Plc.Iters.C11_cyclic_ok_exact_false",
    "Plc.Iters.C11_checkers_partial"
   ],
   "note": "The exactness claim is false of the code (witness [1,3,0,2]); what the checkers do guarantee is proved."
  },
  {
   "property": "C12",
   "status": "proved",
   "theorems": [
    "Plc.Multidx.C12_multidx_enumerates",
    "Plc.Multidx.C12_library_iterators_cycle"
   ],
   "note": "For any number of component iterators that cycle; the four library iterators are shown to be such."
  },
  {
   "property": "C13",
   "status": "proved",
   "theorems": [
    "Plc.Container.C13_container_is_stack",
    "Plc.Container.C13_growth_wraps"
   ],
   "note": "Histories whose block size in bytes fits 32 bits; the wrap-around is proved as a limit."
  },
  {
   "property": "C14",
   "status": "proved",
   "theorems": [
    "Plc.Buffers.C14_insert",
    "Plc.Buffers.C14_sortedbuf_is_set",
    "Plc.Buffers.C14_empty_buffer_dies"
   ],
   "note": "For every bsearch meeting the C standard."
  },
  {
   "property": "C15",
   "status": "proved",
   "theorems": [
    "Plc.Buffers.C15_compacting_copy",
    "Plc.Buffers.C15_out_of_range_dies",
    "Plc.Buffers.C15_transform_and_compact"
   ],
   "note": "For every qsort meeting the C standard; also pd_transform_and_compact_indices."
  },
  {
   "property": "C16",
   "status": "proved",
   "theorems": [
    "Plc.Cmp.C16_cross_cmp",
    "Plc.Cmp.C16_idx_cmp",
    "Plc.Cmp.C16_face_cmp",
    "Plc.Cmp.C16_component_cmp",
    "Plc.Cmp.C16_longest_first",
    "Plc.Cmp.C16_or_cmp",
    "Plc.Cmp.C16_orientation_cmp",
    "Plc.Cmp.C16_perm_cmp",
    "Plc.Cmp.C16_cyclic_cmp",
    "Plc.Cmp.C16_dihedral_cmp",
    "Plc.Cmp.C16_edgemap_cmp",
    "Plc.Cmp.C16_crossmap_cmp",
    "Plc.Cmp.C16_large_indices_false",
    "Plc.Cmp.C16_strand_cmp_false"
   ],
   "note": "Every comparator named in the property, for values below 2^31; beyond that antisymmetry fails (C16_large_indices_false). pd's crossing_strand_cmp, which compares doubles with a tolerance, is shown not to be transitive (C16_strand_cmp_false)."
  },
  {
   "property": "C17",
   "status": "proved",
   "theorems": [
    "Plc.C17_canonorder_rotation",
    "Plc.C17_canonorder_canonical",
    "Plc.C17_canonorder_idempotent",
    "Plc.C17_not_idempotent_in_general"
   ],
   "note": "Canonical and idempotent whenever no smallest edge faces itself across the crossing, which includes four distinct edges; a witness shows idempotence fails otherwise."
  },
  {
   "property": "C18",
   "status": "proved",
   "theorems": [
    "Plc.C18_regenerate_crossings",
    "Plc.C18_unknot_reads_outside"
   ],
   "note": "At least one crossing (a consistent diagram has no edges otherwise); on the 0-crossing unknot the function is shown to read outside its array."
  },
  {
   "property": "C19",
   "status": "partial",
   "theorems": [
    "Plc.C19_regenerate_edges_false",
    "Plc.C19_regenerate_edges_sound",
    "Plc.C19_regenerate_edges_partial",
    "Plc.C19_regenerate_edges_ends",
    "Plc.C19_regenerate_edges_plane"
   ],
   "note": "False as stated: crossing [0,1,0,1] is stopped by the failsafe (C19_regenerate_edges_false). Proved when no edge faces itself across a crossing, in particular for all connected plane diagrams (C19_regenerate_edges_plane); in all cases a run that returns is correct (C19_regenerate_edges_sound)."
  },
  {
   "property": "C20",
   "status": "proved",
   "theorems": [
    "Plc.C20_next_previous_inverse",
    "Plc.C20_next_injective"
   ],
   "note": ""
  },
  {
   "property": "C21",
   "status": "partial",
   "theorems": [
    "Plc.C21_regenerate_comps_partial",
    "Plc.C21_regenerate_comps_false",
    "Plc.C21_components_fit",
    "Plc.C21_regenerate_comps_plane"
   ],
   "note": "False without a bound on the number of components: five separate kinked loops overrun the component array (C21_regenerate_comps_false). Proved for diagrams with at most MAXCOMPONENTS strands, and with no such hypothesis for connected plane diagrams (C21_regenerate_comps_plane)."
  },
  {
   "property": "C22",
   "status": "proved",
   "theorems": [
    "Plc.C22_faces_partition",
    "Plc.C22_faces_returns",
    "Plc.C22_faces_plane",
    "Plc.C22_sides_differ"
   ],
   "note": "Either the program stops or the faces partition the sides and have the stated form; it returns on every connected plane diagram with room for the faces."
  },
  {
   "property": "C23",
   "status": "partial",
   "theorems": [
    "Plc.C23_checks_accept",
    "Plc.C23_checks_sound_partial",
    "Plc.C23_edges_ok_false"
   ],
   "note": "Completeness is proved. Soundness is false of the code in one respect: head and tail of a record may name the same place (C23_edges_ok_false); everything else is proved, and consistency follows once head and tail places differ."
  },
  {
   "property": "C24",
   "status": "proved",
   "theorems": [
    "Plc.C24_canonicalorder_least",
    "Plc.C24_canonicalorder_canonical"
   ],
   "note": "Least cyclic rotation over both reading directions; same value for all rotations and reversals of the input."
  },
  {
   "property": "C25",
   "status": "proved",
   "theorems": [
    "Plc.C25_base64_injective",
    "Plc.C25_characters_distinct"
   ],
   "note": "Base64 of 24 bytes is injective on the data; the final byte of the stored hash is the terminator, so the last of the 32 characters is cut off."
  },
  {
   "property": "C26",
   "status": "proved",
   "theorems": [
    "Plc.C26_overunder",
    "Plc.C26_flip",
    "Plc.C26_strands"
   ],
   "note": ""
  },
  {
   "property": "C27",
   "status": "proved",
   "theorems": [
    "Plc.C27_linking_number",
    "Plc.C27_linking_symm",
    "Plc.C27_linking_flip",
    "Plc.C27_linking_self",
    "Plc.C27_unsigned",
    "Plc.C27_linking_half",
    "Plc.C27_unsigned_half",
    "Plc.C27_half_false"
   ],
   "note": "Half the sum exactly on connected plane diagrams (the sum is shown even by a mod 2 homology argument); rounded towards zero otherwise, with a witness that pd_regenerate_faces accepts."
  },
  {
   "property": "C28",
   "status": "proved",
   "theorems": [
    "Plc.C28_unsigned",
    "Plc.C28_signed",
    "Plc.C28_sign_unique",
    "Plc.C28_start",
    "Plc.C28_all"
   ],
   "note": "Proved for every consistent oriented diagram whose component records partition the edges: the bubble sort ends within its safety limit, swap parity equals alternation of the four visits, the unsigned count is the number of alternating pairs and the signed count the sum of sign products (sign as in the source comment; the code computes its negative, which cancels). int is unbounded in the model."
  },
  {
   "property": "C29",
   "status": "proved",
   "theorems": [
    "Plc.C29_reorient_component",
    "Plc.C29_reorient_positive",
    "Plc.C29_reorient_twice",
    "Plc.C29_reorient_involution",
    "Plc.C29_renumber_component"
   ],
   "note": "Reversal and renumbering of a component on connected plane diagrams numbered as pd_regenerate leaves them; the hash and the renaming of old face records, which are rebuilt at once, are not modelled."
  },
  {
   "property": "C30",
   "status": "partial",
   "theorems": [
    "Plc.C30_compose",
    "Plc.C30_associative",
    "Plc.C30_stareq",
    "Plc.C30_composite_ok_partial",
    "Plc.C30_composite_ok_false"
   ],
   "note": "Map-level claims are proved in full. Validity fails: the cached permutation index of a composite is never computed (negation proved); composites are accepted exactly for more than six edges or the identity."
  },
  {
   "property": "C31",
   "status": "proved",
   "theorems": [
    "Plc.C31_cyclic_equality",
    "Plc.C31_symmetric",
    "Plc.C31_empty_false",
    "Plc.C31_in_cyclic_order"
   ],
   "note": "Exact on nonempty buffers of any length, both orientations; empty buffers shown to be the exception. 32-bit arithmetic in in_cyclic_order modelled."
  },
  {
   "property": "C32",
   "status": "proved",
   "theorems": [
    "Plc.C32_oriented_crossmap",
    "Plc.C32_target_unique",
    "Plc.C32_build_crossmaps",
    "Plc.C32_repeated_crossing_dies"
   ],
   "note": "Soundness, completeness and uniqueness of the crossing map for canonical diagrams (crossings rotated to canonical form and strictly sorted, as pd_regenerate leaves them); bsearch is any search meeting its C contract. A witness shows the search dies when two crossings share all four edges in the same cyclic order."
  },
  {
   "property": "C33",
   "status": "proved",
   "theorems": [
    "Plc.C33_no_duplicates",
    "Plc.C33_same_uid",
    "Plc.C33_keep_all",
    "Plc.C33_search",
    "Plc.C33_stats",
    "Plc.C33_unsigned_stored_twice"
   ],
   "note": "For every insertion history in one mode; pd_isomorphic/pd_diagram_isotopic enter as any test deciding an equivalence relation respected by the hash and by packing (C58 puts the real ones in), Judy arrays as ordered maps. A theorem shows the hypothesis fails for unsigned diagrams in isotopy mode, which are stored twice."
  },
  {
   "property": "C34",
   "status": "proved",
   "theorems": [
    "Plc.C34_iteration",
    "Plc.C34_next_needs_first"
   ],
   "note": "After every insertion history; the loop ends, visits every entry once in order and leaves the store unchanged. Hashes must be nonempty strings."
  },
  {
   "property": "C35",
   "status": "proved",
   "theorems": [
    "Plc.Split.C35_split_labels",
    "Plc.Split.C35_split_consistent",
    "Plc.Split.C35_one_piece"
   ],
   "note": "labels of pd_split_diagram's search agree exactly on edges connected through crossings; all labels below the number of pieces are used; circles without crossings allowed"
  },
  {
   "property": "C36",
   "status": "proved",
   "theorems": [
    "Plc.Moves.C36_add_loop",
    "Plc.Moves.C36_remove_loop",
    "Plc.Moves.C36_remove_no_loop",
    "Plc.Moves.C36_figure_eight"
   ],
   "note": "C36_add_loop and C36_remove_loop: both moves return on every consistent oriented diagram (removal: the other two edges at the crossing differ), sizes change by one crossing and two edges, the result is consistent and oriented, and the smaller diagram is the larger one without the loop (LoopRemoved, with signs). Components are carried along with tags. C36_remove_no_loop, C36_figure_eight: the remaining cases. Addition needs at most MAXCOMPONENTS strands in the copy. Face and hash regeneration and the final asserts are not part of this model."
  },
  {
   "property": "C37",
   "status": "proved",
   "theorems": [
    "Plc.Kasc.C37_k_ascents",
    "Plc.Kasc.C37_k_descents",
    "Plc.Kasc.C37_table",
    "Plc.Kasc.C37_zero_ascents"
   ],
   "note": "For every table with the entries it is asked for (naptable.h is not in the repository; C37_table shows that the documented values qualify) and every random stream with values below 1. C37_zero_ascents: k = 0 always leaves the buffers."
  },
  {
   "property": "C38",
   "status": "proved",
   "theorems": [
    "Plc.Hyper.C38_psi_inverse",
    "Plc.Hyper.C38_hypersimplex_sample",
    "Plc.Hyper.C38_last_slice"
   ],
   "note": "Over every ordered field (rounding is not modelled), with the sampler hypersimplex_sample for 1 <= k <= n-2; C38_last_slice: k = n-1 leaves the buffers."
  },
  {
   "property": "C39",
   "status": "proved",
   "theorems": [
    "Plc.Xo.C39_next_injective",
    "Plc.Xo.C39_never_zero",
    "Plc.Xo.C39_periodic",
    "Plc.Xo.C39_init",
    "Plc.Xo.C39_uniform",
    "Plc.Xo.C39_uniform_onto"
   ],
   "note": "Injective, onto, periodic, never zero; seeding injective with four different words; uniform values are exactly the multiples of 2^-52 in [0,1)."
  },
  {
   "property": "C40",
   "status": "partial",
   "theorems": [
    "Plc.Io.C40_write_read_partial",
    "Plc.Io.C40_write_read_renumbered_partial",
    "Plc.Io.C40_write_read_many_partial",
    "Plc.Io.C40_empty_hash_null",
    "Plc.Io.C40_long_hash_overflows",
    "Plc.Io.C40_many_components_null",
    "Plc.Io.C40_unknot",
    "Plc.C40_neat_partial"
   ],
   "note": "False in full: a diagram with an empty hash or with more than n/2+2 components is read back as NULL, a 32-character hash overflows, a 0-crossing diagram loses hash and uid (all proved). Proved: everything else reads back exactly when its crossings are in canonical order, otherwise up to the renumbering of C18; also lists of diagrams. C40_neat_partial: with the library's own pd_ok and hash, for every plane diagram as pd_regenerate or the loop moves leave it."
  },
  {
   "property": "C41",
   "status": "partial",
   "theorems": [
    "Plc.C41_read_ok_partial",
    "Plc.C41_write_read_ok_partial",
    "Plc.C41_read_partial",
    "Plc.C41_write_read_partial",
    "Plc.C41_loop_dies",
    "Plc.C41_hopf_wrong"
   ],
   "note": "Reading the code of a connected plane diagram whose components have at least three edges gives that diagram with its directions and signs, up to names, and it passes pd_ok (C41_read_ok_partial); writing and reading a signed plane diagram gives it back. For two-edge components the claim is false: the code of the unknot with one loop makes the program exit, and a negative Hopf link is read as a positive one."
  },
  {
   "property": "C42",
   "status": "proved",
   "theorems": [
    "Plc.C42_reciprocal",
    "Plc.C42_faithful",
    "Plc.C42_no_crossings"
   ],
   "note": "Every entry of the Millett/Ewing lines names the crossing at the other end of that edge and the position there, and is reciprocal; 0 crossings gives an unterminated buffer. The string determines signs and entries (C42_faithful)."
  },
  {
   "property": "C43",
   "status": "proved",
   "theorems": [
    "Plc.C43_twist",
    "Plc.C43_torus",
    "Plc.C43_chain",
    "Plc.C43_unknot"
   ],
   "note": "twist, (2,q) torus, chain and unknot builders, crossing list before pd_regenerate: 2n numbers, each exactly twice. Signs and planarity are not part of the claim."
  },
  {
   "property": "C44",
   "status": "partial",
   "theorems": [
    "Plc.C44_call_partial",
    "Plc.C44_history_partial",
    "Plc.C44_range",
    "Plc.C44_inside_partial",
    "Plc.C44_knot",
    "Plc.C44_other_component_lost",
    "Plc.C44_remove",
    "Plc.C44_remove_count"
   ],
   "note": "False for several components (C44_other_component_lost: the second loop of overrun_check does not compare components). Proved for every history in which no kind and vectors are used on two components, in particular for every one-component curve (C44_knot); removal and its count fully."
  },
  {
   "property": "C45",
   "status": "proved",
   "theorems": [
    "Plc.C45_pair",
    "Plc.C45_number",
    "Plc.C45_injective",
    "Plc.C45_wrap",
    "Plc.C45_clamp",
    "Plc.C45_edges"
   ],
   "note": "All curve shapes, including components without vertices; wrapping and clamping for every int. A closed component without vertices is UB in plc_vertex_num (division by zero or an endless loop)."
  },
  {
   "property": "C46",
   "status": "proved",
   "theorems": [
    "Plc.C46_product",
    "Plc.C46_empty",
    "Plc.C46_zero_kept"
   ],
   "note": "Against Mathlib's AddMonoidAlgebra \u2124 (\u2124 \u00d7 \u2124). Zero coefficients are kept (C46_zero_kept); an empty factor is UB (C46_empty)."
  },
  {
   "property": "C47",
   "status": "proved",
   "theorems": [
    "Plc.C47_multiset",
    "Plc.C47_polynomials"
   ],
   "note": "Exactly multiset equality; polynomial equality for reduced lists."
  },
  {
   "property": "C48",
   "status": "proved",
   "theorems": [
    "Plc.Tri.C48_cross",
    "Plc.Tri.C48_system_ok",
    "Plc.Tri.C48_fan",
    "Plc.Tri.C48_teeth",
    "Plc.Tri.C48_teeth_triangle",
    "Plc.Tri.C48_random",
    "Plc.Tri.C48_spiral",
    "Plc.Tri.C48_spiral_triangle",
    "Plc.Tri.C48_nonvacuous"
   ],
   "note": "Fan (every n), teeth and spiral (n>=4; for n=3 they write past an empty array, also proved), random (n>=3, every random stream). The library's own check of a chord system is proved to decide exactly no two equal, no two crossing."
  },
  {
   "property": "C49",
   "status": "proved",
   "theorems": [
    "Plc.C49_regenerate_keeps",
    "Plc.C49_regenerate_rebuilds"
   ],
   "note": "pd_regenerate is modelled without its last call (the hash). Includes the proof that a connected plane diagram has at most n/2+1 components, so buffers from pd_code_new suffice."
  },
  {
   "property": "C50",
   "status": "proved",
   "theorems": [
    "Plc.C50_hash_computed",
    "Plc.C50_hash_invariant",
    "Plc.C50_regenerated_hash",
    "Plc.C50_count_mod_256",
    "Plc.C50_zero_runs_lost",
    "Plc.C50_bad_faces"
   ],
   "note": "Hash computed without failure on good face records; equal for diagrams with the same shadow, also end to end through pd_regenerate; checked against a stored diagram of data/pdstors/6.pdstor. Findings: entries mod 256, leading zero runs lost, failures on bad face records."
  },
  {
   "property": "C51",
   "status": "proved",
   "theorems": [
    "Plc.C51_ok_sound",
    "Plc.C51_ok_complete",
    "Plc.C51_regenerated_ok",
    "Plc.C51_missing_faces_accepted",
    "Plc.C51_tags_unchecked",
    "Plc.C51_empty_face_ub"
   ],
   "note": "C51_ok_sound, C51_ok_complete, C51_regenerated_ok. C51_missing_faces_accepted, C51_tags_unchecked and C51_empty_face_ub show what is not checked; edge records with equal head and tail place remain accepted (C23)."
  },
  {
   "property": "C52",
   "status": "partial",
   "theorems": [
    "Plc.C52_all_isomorphisms",
    "Plc.C52_isomorphic",
    "Plc.C52_equivalence",
    "Plc.C52_directions_partial",
    "Plc.C52_wrong_direction_listed",
    "Plc.C52_product_wraps",
    "Plc.C52_chain_wraps"
   ],
   "note": "Sound, complete and without repetition for all diagrams in the stated range; pd_isomorphic characterised and shown an equivalence relation. Directions proved on components with three or more edges; false on two-edge components (C52_wrong_direction_listed). When the number of edge maps is a multiple of 2^32 the search is undefined even from a diagram to itself (C52_product_wraps), and a chain of twelve rings is such a diagram (C52_chain_wraps)."
  },
  {
   "property": "C53",
   "status": "proved",
   "theorems": [
    "Plc.C53_iso_consistent",
    "Plc.C53_mixed_orientation_accepted",
    "Plc.C53_isos_unique",
    "Plc.C53_edgemaps_unique",
    "Plc.C53_perms_unique"
   ],
   "note": "Exact characterisation, with accepted oddities as separate theorems. Diagrams without crossings are not covered."
  },
  {
   "property": "C54",
   "status": "partial",
   "theorems": [
    "Plc.C54_all_isotopies",
    "Plc.C54_isotopic",
    "Plc.C54_same_is_isotopic",
    "Plc.C54_isotopic_partial",
    "Plc.C54_equivalence",
    "Plc.C54_other_tags_die",
    "Plc.C54_exchanged_tags_die",
    "Plc.C54_reversed_ring_accepted"
   ],
   "note": "Sound, complete and without repetition for maps that follow the edge lists; pd_diagram_isotopic characterised, complete for equal diagrams, and an equivalence relation. Soundness with respect to directions of edges (C54_isotopic_partial) proved when all components have three or more edges; false on two-edge components (C54_reversed_ring_accepted). Tags must match, otherwise the program exits (C54_other_tags_die)."
  },
  {
   "property": "C55",
   "status": "proved",
   "theorems": [
    "Plc.C55_all_map_isomorphisms",
    "Plc.C55_map_isomorphic"
   ],
   "note": "Exact: the orientation-preserving isomorphisms, each once; pd_map_isomorphic characterised. Diagrams without crossings are not covered."
  },
  {
   "property": "C56",
   "status": "partial",
   "theorems": [
    "Plc.C56_regenerate_twice_partial",
    "Plc.C56_unsigned_swings"
   ],
   "note": "Proved for every plane diagram with at least one sign set, for any two behaviours of qsort and any buffers large enough. Diagrams without signs: false (C56_unsigned_swings)."
  },
  {
   "property": "C57",
   "status": "proved",
   "theorems": [
    "Plc.C57_signed_roundtrip",
    "Plc.C57_unsigned_roundtrip",
    "Plc.C57_roundtrip_regenerates"
   ],
   "note": "Complete records, hash and the pd_ok assertion included. Signed diagrams exactly; unsigned ones with all signs negative (see C04); diagrams not yet regenerated come back regenerated."
  },
  {
   "property": "C58",
   "status": "proved",
   "theorems": [
    "Plc.C58_isomorphism_store",
    "Plc.C58_isotopy_store",
    "Plc.C58_search",
    "Plc.C58_unsigned_stored_twice",
    "Plc.C58_other_tags_die"
   ],
   "note": "C33, C34 and the search with pd_pack, pd_unpack, pd_isomorphic, pd_diagram_isotopic and pd_build_isos of the model put in; Judy arrays are ordered maps. In isotopy mode all signs must be set and tags must be A, B, ...; theorems show what happens otherwise."
  },
  {
   "property": "C59",
   "status": "proved",
   "theorems": [
    "Plc.C59_write_read",
    "Plc.C59_read_inserts",
    "Plc.C59_short_file"
   ],
   "note": "all modes; up to 62 components"
  },
  {
   "property": "C60",
   "status": "proved",
   "theorems": [
    "Plc.C60_incremental",
    "Plc.C60_unfinished",
    "Plc.C60_unknown_number"
   ],
   "note": "all modes; up to 62 components"
  },
  {
   "property": "C61",
   "status": "proved",
   "theorems": [
    "Plc.C61_alternating",
    "Plc.C61_unset_dies",
    "Plc.C61_two_ways"
   ],
   "note": "pd_is_alternating decides alternation on every oriented diagram with signs; every plane diagram is made alternating by exactly two sign assignments, opposite to each other"
  },
  {
   "property": "C62",
   "status": "proved",
   "theorems": [
    "Plc.C62_faces_of_edge",
    "Plc.C62_missing_edge_silent",
    "Plc.C62_copy",
    "Plc.C62_copy_no_crossings"
   ],
   "note": "pd_face_and_pos finds the only place of each side and the two faces differ; pd_edge_on_face accepts exactly those; pd_copy keeps all records of a diagram with crossings. Deviations: silent on missing edges, copies of crossingless diagrams forget everything"
  },
  {
   "property": "C63",
   "status": "proved",
   "theorems": [
    "Plc.C63_add_loop",
    "Plc.C63_remove_loop",
    "Plc.C63_remove_figure_eight",
    "Plc.C63_remove_no_loop",
    "Plc.C63_round_trip"
   ],
   "note": "Whole functions, from diagram to diagram, with pd_ok, hash, buffers and assertions. The diagrams meant are those with records in the order pd_regenerate and the moves leave them in (Neat), which the results again have, so that sequences of moves are covered."
  },
  {
   "property": "C64",
   "status": "proved",
   "theorems": [
    "Plc.C64_connect_sum",
    "Plc.C64_bad_edge",
    "Plc.C64_unknot_first",
    "Plc.C64_unknot_second",
    "Plc.C64_unknot_both"
   ],
   "note": "connected sum whole, from pd_ok of the arguments to pd_ok of the result; the unknot without crossings is undefined behaviour"
  },
  {
   "property": "C65",
   "status": "proved",
   "theorems": [
    "Plc.C65_add_bigon",
    "Plc.C65_no_crossings",
    "Plc.C65_same_place_dies"
   ],
   "note": "pd_R2_bigon_addition (pd_crossingmoves.c 1727-1900) from diagram to diagram with the regeneration functions, in the buffers of pd_copy_newsize. The hypothesis Neat is what the regeneration functions and moves establish. Not modelled: allocation failure; the unused last argument. C65_same_place_dies is one concrete case."
  },
  {
   "property": "C66",
   "status": "proved",
   "theorems": [
    "Plc.C66_triangle_flip",
    "Plc.C66_other_face",
    "Plc.C66_loop_side_dies",
    "Plc.C66_trefoil_unknotted"
   ],
   "note": "For every plane diagram with records in order and every face with three edges, no loop among them. A face with another number of edges gives NULL (C66_other_face). C66_loop_side_dies and C66_trefoil_unknotted are the deviations: corners and signs are not checked."
  },
  {
   "property": "C67",
   "status": "proved",
   "theorems": [
    "Plc.C67_round_trip",
    "Plc.C67_thirty_constraints",
    "Plc.C67_exact",
    "Plc.C67_keyword_ignored",
    "Plc.C67_long_line_rejected",
    "Plc.C67_long_line_other_constraint"
   ],
   "note": "C67_round_trip: plc_read of what plc_write wrote, for every proper curve with at most 29 constraints and short vertex lines; C67_exact: the same curve if numbers survive printing. The limits are needed: C67_thirty_constraints (heap overflow in plc_read for every proper curve with 30 constraints or more), C67_long_line_rejected and C67_long_line_other_constraint (lines cut off at 79 characters), C67_keyword_ignored. Numbers are abstract with the laws of NumFmt; a concrete format and curve meet all hypotheses."
  },
  {
   "property": "C68",
   "status": "proved",
   "theorems": [
    "Plc.C68_add",
    "Plc.C68_add_checked",
    "Plc.C68_drop",
    "Plc.C68_drop_checked",
    "Plc.C68_add_drop",
    "Plc.C68_copy",
    "Plc.C68_write_outside",
    "Plc.C68_drop_then_write",
    "Plc.C68_add_last",
    "Plc.C68_add_moves",
    "Plc.C68_colorbuf",
    "Plc.C68_colorbuf_garbage",
    "Plc.C68_set_color"
   ],
   "note": "C68_add, C68_drop, C68_add_drop, C68_copy, C68_colorbuf, C68_set_color for all curves; argument checks C68_add_checked, C68_drop_checked. Constraints are kept only when adding at the end (C68_add_last); otherwise they move to other components (C68_add_moves) or outside the curve (C68_drop_then_write, C68_write_outside: plc_write out of bounds). C68_colorbuf_garbage: unwritten colours."
  },
  {
   "property": "C69",
   "status": "proved",
   "theorems": [
    "Plc.C69_double",
    "Plc.C69_last_vertex",
    "Plc.C69_no_colours",
    "Plc.C69_wrong_colours"
   ],
   "note": "C69_double: components, vertices, colours and constraints of the doubled curve for all proper curves with 1 or one-per-vertex colours. C69_no_colours (undefined behaviour without colours), C69_wrong_colours (stops), C69_last_vertex (constraint on the last vertex lost). The arithmetic of mpsverts is a parameter."
  },
  {
   "property": "C70",
   "status": "proved",
   "theorems": [
    "Plc.C70_refused",
    "Plc.C70_pulled_off",
    "Plc.C70_signs",
    "Plc.C70_writhe_changes"
   ],
   "note": "Whole function from diagram to diagram: which strands are found, refusal otherwise, the two-crossing case, one or two resulting diagrams decided by an independent connectivity condition, everything kept, opposite signs at a bigon; negative witness for the missing bigon check"
  },
  {
   "property": "C71",
   "status": "proved",
   "theorems": [
    "Plc.C71_simplify",
    "Plc.C71_no_crossings",
    "Plc.C71_components"
   ],
   "note": "pd_simplify whole, in terms of C63; the tag is lost when no crossing is left"
  },
  {
   "property": "C72",
   "status": "proved",
   "theorems": [
    "Plc.C72_loop_deletion",
    "Plc.C72_bigon_elimination",
    "Plc.C72_triangle_flip",
    "Plc.C72_simplify",
    "Plc.C72_loop_addition_stops"
   ],
   "note": "loop deletion, pd_simplify, bigon elimination, triangle flip; after loop addition pd_linking_number stops"
  },
  {
   "property": "C73",
   "status": "proved",
   "theorems": [
    "Plc.C73_split_diagram",
    "Plc.C73_split_counts"
   ],
   "note": "The model starts from the records in memory; the child's uid is not modelled (0). Scattered (hypothesis) allows records as they are in the middle of pd_R2_bigon_elimination, with free edges, no order."
  },
  {
   "property": "C74",
   "status": "proved",
   "theorems": [
    "Plc.C74_from_crossings",
    "Plc.C74_one_drawing",
    "Plc.C74_no_crossings",
    "Plc.C74_missing_component",
    "Plc.C74_same_place",
    "Plc.C74_comparison_inconsistent",
    "Plc.C74_never_equal"
   ],
   "note": "Starts from the list of crossings (found by findcrossings). That the crossings of a projected closed curve can be drawn in the plane is a hypothesis, not derived from geometry; parameters are in a linear order, the tolerance 1e-8 is an abstract relation. Edge cases: C74_no_crossings, C74_missing_component (finding), C74_same_place."
  },
  {
   "property": "C75",
   "status": "proved",
   "theorems": [
    "Plc.C75_real",
    "Plc.C75_complete",
    "Plc.C75_complete_generic",
    "Plc.C75_open",
    "Plc.C75_made_generic",
    "Plc.C75_rotation_unused",
    "Plc.C75_attempts_alike",
    "Plc.C75_diagram",
    "Plc.C75_no_crossings"
   ],
   "note": "Over the real numbers with the tolerances of the code (no rounding). Thickness (octrope_thickness) and the random vectors are arbitrary parameters. Planarity of the drawing is a hypothesis of C75_diagram, as in C74."
  },
  {
   "property": "C76",
   "status": "proved",
   "theorems": [
    "Plc.C76_closed",
    "Plc.C76_closed_made",
    "Plc.C76_one_edge",
    "Plc.C76_closed_plane",
    "Plc.C76_open",
    "Plc.C76_open_plane",
    "Plc.C76_ftc",
    "Plc.C76_ftc_made"
   ],
   "note": "Over the reals; random numbers are parameters."
  },
  {
   "property": "C77",
   "status": "proved",
   "theorems": [
    "Plc.C77_fan",
    "Plc.C77_closed",
    "Plc.C77_outcome",
    "Plc.C77_coordinates",
    "Plc.C77_reachable",
    "Plc.C77_few_edges",
    "Plc.C77_open"
   ],
   "note": "Over the reals; random numbers are parameters."
  },
  {
   "property": "C78",
   "status": "proved",
   "theorems": [
    "Plc.C78_sap",
    "Plc.C78_outcome",
    "Plc.C78_range",
    "Plc.C78_is_sap_blind",
    "Plc.C78_check_one",
    "Plc.C78_check_two",
    "Plc.C78_hexagon"
   ],
   "note": "Over the reals; random numbers are parameters."
  },
  {
   "property": "C79",
   "status": "proved",
   "theorems": [
    "Plc.Xo.C79_jump",
    "Plc.Xo.C79_period",
    "Plc.Xo.C79_one_cycle",
    "Plc.Xo.C79_streams",
    "Plc.Xo.C79_uniform"
   ],
   "note": "period 2^256-1 from every nonzero state, one cycle, equidistribution of the outputs over a period, jump = 2^128 steps, disjoint streams; polynomial tables checked by the kernel"
  },
  {
   "property": "C80",
   "status": "proved",
   "theorems": [
    "Plc.Motions.C80_rotate",
    "Plc.Motions.C80_rotate_rigid",
    "Plc.Motions.C80_rotate_shape",
    "Plc.Motions.C80_matrix",
    "Plc.Motions.C80_symmetry",
    "Plc.Motions.C80_rotate_vect",
    "Plc.Motions.C80_translate",
    "Plc.Motions.C80_scale",
    "Plc.Motions.C80_translate_constraints",
    "Plc.Motions.C80_scale_constraints",
    "Plc.Motions.C80_project",
    "Plc.Motions.C80_random_rotate",
    "Plc.Motions.C80_random_rotate_down",
    "Plc.Motions.C80_rotate_breaks_constraints",
    "Plc.Motions.C80_fold",
    "Plc.Motions.C80_fold_outcome"
   ],
   "note": "Rotation, folding, translation, scaling, projection over the real numbers: rigid, sense and angle, constraints carried along by translation and scaling. C80_rotate_breaks_constraints, C80_random_rotate_down and C80_fold_outcome are deviations of the code, stated as such."
  },
  {
   "property": "C81",
   "status": "proved",
   "theorems": [
    "Plc.Motions.C81_check",
    "Plc.Motions.C81_check_zero",
    "Plc.Motions.C81_fix"
   ],
   "note": "plc_check_cst and plc_fix_cst over the real numbers, against all allowed points."
  },
  {
   "property": "C82",
   "status": "proved",
   "theorems": [
    "Plc.Measure.C82_arclength",
    "Plc.Measure.C82_subarc",
    "Plc.Measure.C82_position",
    "Plc.Measure.C82_position_open",
    "Plc.Measure.C82_edges",
    "Plc.Measure.C82_diameter",
    "Plc.Measure.C82_gyradius",
    "Plc.Measure.C82_chords_closed",
    "Plc.Measure.C82_chords_open",
    "Plc.Measure.C82_turning",
    "Plc.Measure.C82_turning_end",
    "Plc.Measure.C82_curvature"
   ],
   "note": "Over the real numbers. C82_position_open, C82_chords_closed, C82_chords_open, C82_turning_end state deviations of the code."
  },
  {
   "property": "C83",
   "status": "proved",
   "theorems": [
    "Plc.Vect.C83_open",
    "Plc.Vect.C83_open_null",
    "Plc.Vect.C83_closed",
    "Plc.Vect.C83_closed_outside",
    "Plc.Vect.C83_colours_twice"
   ],
   "note": "C83_colours_twice and C83_closed_outside state deviations of the code."
  },
  {
   "property": "C84",
   "status": "proved",
   "theorems": [
    "Plc.Nearest.C84_neighbour",
    "Plc.Nearest.C84_data_kept",
    "Plc.Nearest.C84_vertex",
    "Plc.Nearest.C84_dimension",
    "Plc.Nearest.C84_dimension_wrong",
    "Plc.Nearest.C84_box_too_large",
    "Plc.Nearest.C84_too_far",
    "Plc.Nearest.C84_grown_buffer",
    "Plc.Nearest.C84_changed_buffer",
    "Plc.Nearest.C84_vertex_of_nothing"
   ],
   "note": "for every history of cached data, as long as the points stay the same; deviations proved as separate theorems"
  },
  {
   "property": "C85",
   "status": "proved",
   "theorems": [
    "Plc.Minrad.C85_minrad",
    "Plc.Minrad.C85_locations_sound",
    "Plc.Minrad.C85_locations_complete",
    "Plc.Minrad.C85_fold_left_out"
   ],
   "note": "radius and locations; completeness of the list with room for two entries per vertex"
  },
  {
   "property": "C86",
   "status": "proved",
   "theorems": [
    "Plc.Poca.C86_closest",
    "Plc.Poca.C86_almost",
    "Plc.Poca.C86_short_edges",
    "Plc.Poca.C86_no_edge"
   ],
   "note": "C86_closest for all edges which are parallel or not nearly parallel, C86_almost with the error bound for all; C86_short_edges and C86_no_edge are the deviations named in the statement"
  },
  {
   "property": "C87",
   "status": "proved",
   "theorems": [
    "Plc.Struts.C87_shortest",
    "Plc.Struts.C87_list_sound",
    "Plc.Struts.C87_list_complete",
    "Plc.Struts.C87_pi_count",
    "Plc.Struts.C87_straight"
   ],
   "note": "Search over the octree, given octree and edge list; C89 supplies them. Not all struts between parallel edges need be found. Deviation: pi_count undefined for straight curves (C87_straight)."
  },
  {
   "property": "C88",
   "status": "proved",
   "theorems": [
    "Plc.Quick.C88_part",
    "Plc.Quick.C88_sorts",
    "Plc.Quick.C88_front_unused",
    "Plc.Quick.C88_reads_in_front"
   ],
   "note": "Both sorts, any strict weak order. Deviation: sort_oct reads by_oct[-1] when twelve or more tags are equal (C88_reads_in_front); value unused (C88_front_unused)."
  },
  {
   "property": "C89",
   "status": "proved",
   "theorems": [
    "Plc.Struts.C89_octree",
    "Plc.Struts.C89_struts",
    "Plc.Struts.C89_refused",
    "Plc.Struts.C89_no_edges"
   ],
   "note": "Octree for every curve with an edge, and with it octrope_struts. bin_to_oct modelled as a function. Deviation: curves without edges (C89_no_edges)."
  },
  {
   "property": "C90",
   "status": "proved",
   "theorems": [
    "Plc.Struts.C90_none_skipped",
    "Plc.Struts.C90_all_struts",
    "Plc.Struts.C90_fold"
   ],
   "note": "For curves without folds; at a fold the contact of the two edges is missed (C90_fold)."
  },
  {
   "property": "C91",
   "status": "proved",
   "theorems": [
    "Plc.Struts.C91_octrope",
    "Plc.Struts.C91_values",
    "Plc.Struts.C91_uninitialised",
    "Plc.Struts.C91_negative_lambda",
    "Plc.Struts.C91_strut_ends"
   ],
   "note": "All combinations of results; curves without folds, as in C90. Deviations: C91_uninitialised, C91_negative_lambda; reported shortest length is DBL_MAX above the cutoff."
  },
  {
   "property": "C92",
   "status": "proved",
   "theorems": [
    "Plc.Symmetry.C92_stale_copies",
    "Plc.Symmetry.C92_symmetrize",
    "Plc.Symmetry.C92_nearest",
    "Plc.Symmetry.C92_moves_little",
    "Plc.Symmetry.C92_symmetric_kept",
    "Plc.Symmetry.C92_variation",
    "Plc.Symmetry.C92_check",
    "Plc.Symmetry.C92_group_check",
    "Plc.Symmetry.C92_no_group"
   ],
   "note": "all of the statement; the stale copies are C92_stale_copies"
  },
  {
   "property": "C93",
   "status": "proved",
   "theorems": [
    "Plc.Symmetry.C93_coordplanes_null",
    "Plc.Symmetry.C93_coordplanes_no_group",
    "Plc.Symmetry.C93_build",
    "Plc.Symmetry.C93_exact",
    "Plc.Symmetry.C93_compose",
    "Plc.Symmetry.C93_rotation_group",
    "Plc.Symmetry.C93_reflection_group",
    "Plc.Symmetry.C93_rotation_symmetrized",
    "Plc.Symmetry.C93_reflection_symmetrized",
    "Plc.Symmetry.C93_refused"
   ],
   "note": "all of the statement; deviations are C93_coordplanes_null, C93_coordplanes_no_group, C93_refused"
  },
  {
   "property": "C94",
   "status": "proved",
   "theorems": [
    "Plc.Embed.C94_embed",
    "Plc.Embed.C94_no_polygon",
    "Plc.Embed.C94_lengths_back",
    "Plc.Embed.C94_dihedral_angle",
    "Plc.Embed.C94_dihedral_undefined",
    "Plc.Embed.C94_dihedrals_back",
    "Plc.Embed.C94_zero_diagonal"
   ],
   "note": "Over the reals. Proper triangulations are an inductive tree; NULL exactly if a triangle inequality fails; lengths and angles are recovered. A diagonal of length 0 is a proved deviation (C94_zero_diagonal)."
  },
  {
   "property": "C95",
   "status": "proved",
   "theorems": [
    "Plc.Embed.C95_generate",
    "Plc.Embed.C95_accepted",
    "Plc.Embed.C95_fan",
    "Plc.Embed.C95_spiral",
    "Plc.Embed.C95_teeth",
    "Plc.Embed.C95_random",
    "Plc.Embed.C95_accepts_swapped"
   ],
   "note": "for all triangulating systems of chords; the check is complete, that it is not sound is shown by a witness"
  },
  {
   "property": "C96",
   "status": "proved",
   "theorems": [
    "Plc.Embed.C96_interval",
    "Plc.Embed.C96_step",
    "Plc.Embed.C96_confined_step",
    "Plc.Embed.C96_diagonals_ok",
    "Plc.Embed.C96_confined_diagonals_ok",
    "Plc.Embed.C96_lengths_close",
    "Plc.Embed.C96_folded",
    "Plc.Embed.C96_chain",
    "Plc.Embed.C96_confined_polygon",
    "Plc.Embed.C96_slow_direction"
   ],
   "note": "Interval of the step exactly characterised; steps keep the triangle inequalities (and confinement) for directions without tiny slopes, up to 1e-8 times the step otherwise; checks are exact; the chain of confined polygons fails no check. Deviation proved as C96_slow_direction."
  },
  {
   "property": "C97",
   "status": "proved",
   "theorems": [
    "Plc.Embed.C97_permute",
    "Plc.Embed.C97_other",
    "Plc.Embed.C97_null",
    "Plc.Embed.C97_tolerance"
   ],
   "note": "For exact unit edges (first one arbitrary, but not within 1e-8 of 1 unless 1) and every shuffle. Deviations proved as C97_null and C97_tolerance."
  },
  {
   "property": "C98",
   "status": "proved",
   "theorems": [
    "Plc.Mat.C98_solve",
    "Plc.Mat.C98_decomposition",
    "Plc.Mat.C98_null",
    "Plc.Mat.C98_singular",
    "Plc.Mat.C98_compose"
   ],
   "note": "real numbers without rounding; singular matrices are not reported (C98_singular)"
  },
  {
   "property": "C99",
   "status": "proved",
   "theorems": [
    "Plc.Geyer.C99_direct",
    "Plc.Geyer.C99_buffer",
    "Plc.Geyer.C99_buffered",
    "Plc.Geyer.C99_same",
    "Plc.Geyer.C99_few",
    "Plc.Geyer.C99_one",
    "Plc.Geyer.C99_constant",
    "Plc.Geyer.C99_nan"
   ],
   "note": "for all samples and buffer sizes of at least 2; deviations C99_few, C99_one, C99_nan, C99_constant"
  },
  {
   "property": "C100",
   "status": "proved",
   "theorems": [
    "Plc.Spline.C100_spline",
    "Plc.Spline.C100_divisors",
    "Plc.Spline.C100_sample_closed",
    "Plc.Spline.C100_sample_open",
    "Plc.Spline.C100_open",
    "Plc.Spline.C100_resample",
    "Plc.Spline.C100_color",
    "Plc.Spline.C100_single"
   ],
   "note": "real arithmetic; tangents at the ends arbitrary; deviations C100_open, C100_color, C100_single"
  },
  {
   "property": "C101",
   "status": "proved",
   "theorems": [
    "Plc.Deletions.C101_diagram",
    "Plc.Deletions.C101_deleted",
    "Plc.Deletions.C101_edge",
    "Plc.Deletions.C101_edge_loose",
    "Plc.Deletions.C101_crossing",
    "Plc.Deletions.C101_loose",
    "Plc.Deletions.C101_loop"
   ],
   "note": "pd_edge_delete and pd_crossing_delete on diagrams with any holes: exact effect, and agreement of the records is kept (C101_edge, C101_crossing; C101_diagram shows that every diagram qualifies). The crossing must have no small loop and no incoming edge with a loose tail; without these the claim is false, and the failures are proved (C101_loop, C101_loose, C101_edge_loose)."
  },
  {
   "property": "C102",
   "status": "proved",
   "theorems": [
    "Plc.Poly.C102_mathematica",
    "Plc.Poly.C102_latex",
    "Plc.Poly.C102_lmpoly_overrun"
   ],
   "note": "Printing for Mathematica and LaTeX is injective and stays in its buffer for all polynomials; printing for lmpoly is refuted for all polynomials with a constant power"
  },
  {
   "property": "C103",
   "status": "proved",
   "theorems": [
    "Plc.Poly.C103_read",
    "Plc.Poly.C103_overrun"
   ],
   "note": "Reading of lmpoly output is correct for all rows if there is room; refuted when there are more monomials than spaces"
  },
  {
   "property": "C104",
   "status": "proved",
   "theorems": [
    "Plc.Poly.C104_roundtrip",
    "Plc.Poly.C104_hopf"
   ],
   "note": "Round trip for all polynomials with m^0 that fit in the buffers; refuted for the Hopf link"
  },
  {
   "property": "C105",
   "status": "partial",
   "theorems": [
    "Plc.Poly.C105_read_partial",
    "Plc.Poly.C105_small"
   ],
   "note": "The full claim is false (C105_small: the allocation is too small); proved when the allocator gives at least the size of the structure"
  },
  {
   "property": "C106",
   "status": "partial",
   "theorems": [
    "Plc.NVect.C106_ops",
    "Plc.NVect.C106_distance_partial",
    "Plc.NVect.C106_angle",
    "Plc.NVect.C106_normalize",
    "Plc.NVect.C106_sqDist",
    "Plc.NVect.C106_vmadd"
   ],
   "note": "The full claim is false for nplc_sq_dist (C106_sqDist) and for nplc_vmadd, which overwrites its argument (C106_vmadd); the other operations, the distance, the angle and normalizing are proved"
  }
 ]
}