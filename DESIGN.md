# Design

Machine-checked Lean 4 model of `discretehelpers` (python), source read as text from `/repo`.

## Method

* Shallow, function-by-function models. Each model definition cites file and lines.
* Python exceptions are values of `Except Err α`; python dicts are association lists with python's
  insertion semantics (`Verif.Py.Dict`); python sets of naturals used as bags of keys are lists, and every
  theorem about them is stated through membership, so iteration order is irrelevant.
* Natural numbers and integers are unbounded (as in python).
  `np.lcm`/`np.int64` overflow is outside the models, except that of C165.  Float logarithms are exact in all models except those of C163 and C166, which show where this is justified.
* Properties are stated against small independent specifications (functions on all of `Nat`,
  equivalence closures, determinants from Mathlib, ...), in `Props*.lean` files,
  apart from the helper lemmas.
* Where the code violates a property, the negation is proved with a concrete witness and the
  strongest true part is proved with suffix `_partial`.

## Trusted base

* Lean 4.33.0 kernel; axioms at most `propext`, `Classical.choice`, `Quot.sound`.
* The hand translation python -> Lean given in the model files (the citations make it reviewable).
* External libraries that are modelled by their documented meaning, not by their code:
  `sympy.primefactors`, `numpy.lcm`, `numpy` array indexing/transpose/dot, `factoradic.from_factoradic`,
  `itertools.combinations/product/permutations`, `sorted`, `bidict`, `math.log` (as exact binary logarithm).

## Plan per property

| property | modelled | proof method |
|---|---|---|
| C01-C04 | `Perm.__init__`, `__getitem__` | case analysis, invariant `WF` established by all constructors |
| C05 | `reduce_period`, `block_repeats`, `__eq__` | periods closed under gcd; fixpoint of the prime loop is the least period |
| C06-C08 | `__mul__`, `broaden_moved`, `inverse`, `__pow__` | semantics lemma `(a*b)[i]=a[b[i]]`, then C05 |
| C09-C10, C18 | `cycles`, `order`, `cycles_dynamic` | loop invariant of the cycle extraction, fuel shown sufficient |
| C11-C13 | `sequence`, `apply_on_vector`, `__str__` | from semantics |
| C14-C16 | inversion vectors, ranks, parity | induction on length |
| C17 | `cycle_partition` | cycles + SetPart |
| C19-C24 | helpers in `a/` | induction / functional induction |
| C25 | Bareiss elimination | determinant identities (Sylvester), Mathlib `Matrix.det` as specification |
| C26-C28 | `Binv` | list induction |
| C29-C30 | atom patterns, Walsh functions | bit lemmas |
| C31-C33 | `SigPerm` | semantics as signed maps |
| C34-C36 | `WalshPerm` | linear maps over bits |
| C37-C44 | `SetPart` | refinement to equivalence relations, invariants over histories |
| C45-C47 | `SetPartComp` | refinement to signed equivalence closure, invariant over histories |
| C48-C53 | `Boolf` | semantics as functions on assignments; canonical objects are determined by their function |
| C54-C55 | `right_rank`, `left_rank` | lexicographic comparison of inversion vectors, induction on length |
| C56 | `inventory_dict` | induction on the list |
| C57 | remaining methods of `Binv` | list lemmas |
| C58-C59 | `blocks_with_singletons`, `refine_block` | refinement to equivalence relations |
| C60-C61 | constructor and derived values of `SetPartComp` | case analysis, invariant of histories |
| C62 | strings, flags, comparisons of `SigPerm` | from semantics |
| C63 | `simple_gens` | counting of true operands |
| C64-C68 | the constructor of `Boolf` (tables, atoms, operands, fullspots, combinations of arguments) | termination analysis of the dispatch, deflation and reordering lemmas |
| C69-C70 | `val`, `apply`, `apply_sigperm` | substitution lemma, action laws |
| C71 | `walsh_spectrum` | induction on the stages of the fast transform, orthogonality of characters |
| C72 | `_noble`, `praetor_int`, `is_noble`, `noble_quadrant` | twin transform of halves |
| C73 | foibles, quadrant extensions | counting of true places, induction on the arity |
| C74 | `_patron`, `leader` | linearity of the twin transform |
| C75 | `consul`, `_prefect`, `arity_to_walsh_matrix` | exchange of sums over GF(2) |
| C76 | `filtrated_boolf` | invariant of the loop that collects true places |
| C77 | `filtrated_pairs`, `filtrated_pair`, `atom_pair_*`, `atom_border_in_atom_side`, `atom_to_crossing_atoms` | from C76; case analysis of the strings |
| C78 | `flat_to_layered`, `layered_tt`, `layered_weight`, `is_symmetric` | loop invariants; the keys of a layer through the highest differing digit; exchanges by induction on the number of differing atoms |
| C79 | `hasse_matrix_coordinates`, `hasse_matrix_coordinates_to_tt`, `is_solid`, `symmetric_to_index` | digits of the halves; order through the highest differing digit |
| C80 | `is_linear`, `weight_fract`, `value_fract`, `walsh_distances` | from C29, C30 and C71; repeated tables as multiples of 2^2^n + 1 |
| C81 | `is_root`, `root_boolf`, `fullspots`, `inflated_fullspots`, `spread_vector`, `atomvals_integer` | spots as digits of the atoms; canonical objects are determined by their values |
| C82 | `splits`, `splits_overlap_counts`, `splits_equal`, `splits_onesided`, `onesided_atomkeys`, `onesided_is_universe` | loop invariant over the pairs; case analysis of the four regions |
| C83 | `bloat`, `blot`, `blight`, `is_bloatless`, `is_blotless`, `is_blightless`, `*_boolf`, `SetPartComp.boolf` | from C45 and C61: each true place is a model of all facts entered |
| C84 | `splits_equality_blocks`, `splits_preferred_side`, `bloatless_atomkeys_undeflated`, `bloatless_spotint`, `bloatless_boolf` | tied atoms as an equivalence with chosen representatives; a spot that follows the ties is determined by its digits there |
| C85 | `bloatless_atomkeys_deflated`, `blightless_atomkeys`, `blightless_boolf`, `blightless_spotint` | from C84 and C76; loop invariant |
| C86 | `splits_combined` | from C37, C39 and C58 by induction over the positions |
| C87 | `gapless_boolf` | each two atoms of a blightless function have at least three pairs of values; loop invariant for the conjunction; an atom that vanishes leaves no gap |
| C88 | `bundles`, `is_bundle`, `bundle_overlap_counts`, `bundle_grid_partitions` | partition generated by pairs (C37, C58) compared with the equivalence relation generated by crossing |
| C89 | `fullspot_atoms`, `fullspots_by_weight`, `layered_fullspots`, `fullspot_weights`, `fullspotlinks_by_weight`, `number_of_fullspotlinks` | loop invariants; a link is an inclusion of the ones with weights that differ by one |
| C90 | `hypersplits`, `hypersplits_detailed`, `hypersplits_potential_cores` | level by level: subsets of shattered sets are shattered, the number of classes is the number of occurring combinations (C37, C39, C58); signs cannot contradict, because the fixed positions are shattered |
| C91 | `fissions`, `fissions_weight` (and `_layered`), `hyperfission`, `atom_indices_to_sequence`, `repeat_sequence` | the keys of a box in ascending order are the keys with given digits at the dimensions and 0, 1, 2, ... at the other places; C23 |
| C92 | `fission_walsh_spectra` and its variants, `hyperfission_walsh_spectra` and its variants, `sequence_to_entry_counts` | C71's transform on each box; the number of earlier keys of a box is the position (loop invariants) |
| C93 | `rev_colex_perms` | the list of arrangements is sorted, the ranks (C15) of its entries ascend |
| C94 | `ec_family` | labelling all elements gives the partition into sets with equal labels (C44); negation of atoms is substitution (C69) |
| C95 | `ec_faction` | as C94; each injective replacement of atoms extends to a permutation, and is a choice followed by an arrangement |
| C96 | `ec_clan` | as C95, with signed permutations (C31, C33, C70); induction over the depth for the endless recursion |
| C97 | `sierpinski_partition`, `sierpinski_twin` | the join of the partitions of single digits relates numbers that agree elsewhere (C40); the blocks are sorted by their first elements, which are the numbers without digits of the index, so block number `j` has the free digits of `j`; then the loop over blocks |
| C98 | `schoute_coset_gen` | placing two arrangements at complementary places gives each permutation of the coset once; ranks by C93 |
| C99 | `family_minrep` | invariant: after each column the candidates are those whose Zhegalkin index has the least leading digits, and they have at least two different members; the entries of a column are the coefficients after negation (`subXor_nsum`, by induction over the arity). The order in which python iterates over a set is a parameter of the model |
| C100 | `faction_minrep` | same invariant as C99, for permutations; the coefficient at a place after a permutation is that at the permuted place (`coef_renamed`), which is in the same layer; the permutations with a false entry are the union of the cosets of C98 (`foundLoop_spec`), or its complement. Replacing the atoms by their ranks does not enlarge the index (`compressed`), which gives minimality for all atoms. The ratios are exact fractions in the model |
| C101 | `clan_minrep` | same invariant as C99, for pairs of a negation and a permutation; an entry of a column is the coefficient after permuting and negating (`applicants_spec`); the assertion holds iff the set of free atoms is iterated in ascending order (`blueKeys_sorted`), so a result is never wrong. For the exception the columns before the failing one are constant (`column_sum`). The ratios are exact fractions in the model |
| C102 | `ec_family_splinters` | members by C94; invariant of the grouping loop (`Grouped`); two functions have the same `faction_minrep` iff one arises from the other by replacing atoms (C100); Zhegalkin indices are injective |
| C103 | `ec_clan_factions` | as C102, with the members by C96; the `faction_minrep` of a member is itself a member, and has the least index of its part, so the assertion holds |
| C104 | `__str__`, `__hash__`, `__lt__`, `__gt__`, `__le__`, `__ge__` | a datatype of python expressions with their texts and values; texts are injective by splitting at quotes and delimiters, the values by C64 and C68; order of strings by induction |
| C105 | `ec_clan_partitioned` | the orders of the sets are parameters; invariant of the loop that collects the classes (sorted, disjoint, the sum is the number of their elements), closed forms of the dictionaries; non-empty splinters of equal length by replacing atoms; the dictionaries are determined by their specification, so the orders do not matter |
| C106 | `symmetric_spots` | the pairs of the block of the clan are exactly the symmetries (with the spec of `ec_clan`); each is applied on numbers through the spec of `apply_on_natural_number`; the closure of the merged pairs is the relation itself, because symmetries have inverses and products |
| C107 | `perm_symmetry_partition` | as C106 with the faction; the comparison of the truth values in the loop is always true, because only symmetries are applied |
| C108 | `family_malerep` | counting places after a change of digits: the consul of a male function changes by the negated digits; functions are determined by root function and atoms |
| C109 | `family_is_self_complementary` | with C99 for the comparison of representatives; negating arguments keeps the number of true places, the complement has the remaining ones |
| C110 | `sort_together` | sorting commutes with taking the tuples at the places; choosing from the transposed list of tuples gives back the lists |
| C111 | `sort_rows_together`, `sort_cols_together` | C110 for lists of rows; transposition and reflection turn columns into rows and back |
| C112 | `multi_lcm` | induction over the list with the lcm of the part read as invariant |
| C113 | `ec_clan_matrix` (the indices) | the blocks of the clan contain exactly the signed permutations leading to their label (C96); the loops over splinters, members and pairs collect them; python's iteration orders are parameters |
| C114 | `ec_clan_matrix` (partitions) | each pair (`keyneg`, `perm`) belongs to a signed permutation; with the same `keyneg` the results differ only by a permutation of arguments, with the same `perm` only by negations |
| C115 | `ec_clan_matrix` (weights, sizes) | renaming arguments permutes the coefficients of the Zhegalkin polynomial; all splinters of a faction have the same size (C105) |
| C116 | `ec_clan_matrix` (order of the splinters) | the two sorting routines (C110, C111) and uniqueness of sorted lists |
| C117 | the constructor of `CollectionOfSegments` | invariant of the mutual recursion: what was added is closed under inferiors and common superiors; a measure (the missing vectors) bounds the depth; completeness by induction over the dimension |
| C118 | `segment_to_adjacent_spots` | digits of the filled vectors; different fillings give different numbers |
| C119 | `get_spots`, `get_links`, `get_neighboring_links` | faces of dimension 0, 1, 2 (C117) are spots, pairs and squares; loops with the set collected so far as invariant |
| C120 | `find_segments`, `coco_spots`, `coco_links` | C119; there is at most one component if and only if all nodes can be reached from each other. `networkx.connected_components` is represented by its result |
| C121 | `create_hasse_matrix` | invariant of the passes: an entry is 2 only if there is a node between; the number of entries 1 bounds the passes; induction over the number of nodes between for the paths |
| C122 | `find_integer_partitions` | induction over n: a partition with more than one part is its first part and a partition of the rest |
| C123 | `hypercube_edges` | induction over the dimension: an edge is in one of the halves or connects them |
| C124 | `sorted_colex` | lexicographic order of the reversed tuples |
| C125 | `powerset` | combinations are the sublists of a length; sum of the binomial coefficients |
| C126 | `inverse_cartesian_product` | sorted lists are equal iff they are permutations; projections of a product. Elements are integers |
| C127 | `is_multisubset`, `multiset_to_distri` | induction over the items |
| C128 | `make_transposition`, `swap_matrix_rows` | case distinction of the places |
| C129 | `binom` | quotient of factorials (Mathlib) |
| C130 | `key_tuples` | mutual induction over the nested container. Keys of dictionaries are integers |
| C131 | `flatten` | structural induction |
| C132 | `sierpinski` | C63 for the rows; the loop writes each row once |
| C133 | `make_linear_boolf` | C67, C29, C20 |
| C134 | `balanced_ternary_walsh_matrix` | induction over n for the digits; remainders modulo 3 |
| C135 | `schoute_perm` of `Perm` and `SigPerm` | digits of the images; period from the images of powers of two |
| C136 | `SigPerm(schoute_perm=...)`, `atompattern_to_signed_index` | canonical form of Boolean functions with one atom; bijectivity forces different places |
| C137 | `_clan_minrep_prototype` | same invariant of the search as for C101, with the true entries of the matrix as candidates; both searches end with the same least member |
| C138 | `noble_to_king_and_quadrant`, `noble_to_king_index_and_quadrant`, `patron_king_index_and_quadrant` | permuting atoms commutes with the Zhegalkin transform, so it preserves nobility, the two quadrant masks and therefore the royal; for a noble the table value is the Zhegalkin index, so the faction minrep of C100 is the least noble |
| C139 | `apply_sigperm_to_colors` | the vector holds the last color of each place; its Schoute permutation (C135) maps the places below 2^n to themselves if and only if the signed permutation fits; grouping by color keeps ascending order; action and agreement with `apply_sigperm` from the digits of the images |
| C140 | `layered_is_greater`, `sort_each_layer` | the two rows of three entries are compared in a lexicographic product order, which is linear; a sorted list is lexicographically least among its rearrangements |
| C141 | `boolfs_to_swan` | sorting with a linear order puts the extreme member at the end or start; the string of a table determines the function (C51, C64), which gives uniqueness |
| C142 | `int_to_rcv` | the lists in the loop are the ends of all descents with a given length; the highest digit bounds the length, so the loop ends |
| C143 | `mod_tt_perm`, `mod_tt_neg` | the Walsh permutation made of powers of two moves digits (C34); agreement with `apply_sigperm` by the values at all places |
| C144 | `spread_sigperm_to_sigvar` | entries of the list; C81 and the value of `apply` at all assignments |
| C145 | `Boolf.diagonal_adjacency_matrix` | loop invariant: the entries of the pairs seen so far; the action of a signed permutation on full spots keeps distances; equal characteristic polynomials of reindexed matrices |
| C146 | `Boolf.walsh_spectrum_abs`, `walsh_spectrum_layered`, `walsh_spectrum_abs_layered` | C71 and C78; a signed permutation multiplies a moved entry of the spectrum by a sign (change of variables in the sum) |
| C147 | `inventory_partition`, `Binv.set_part` | C44 (labelling the elements of a domain one after the other), C37 |
| C148 | `slice_to_range`, slices of `Perm`, `Vector` and `WalshPerm` | entry k of a range; C11 |
| C149 | `filtrated_pairs_pretty` with its loops, `alphabet_subset`; names are all numbers or all strings | the loops keep a dict of the form pattern ↦ named pairs; words and patterns correspond one to one; C77 |
| C150 | `bundles_pretty`, `fullspot_atoms_pretty`, `hypersplits_pretty`, `hypersplits_potential_cores_pretty` (without `print_only`), `fullspotlinks_by_atom_pretty` | C88, C89, C90; joined strings of fixed lengths determine their parts |
| C151 | `multigrade_bitwise`, `subdict` (iteration order of the set of keys is a parameter), `default_to_regular_dict` (trees of dictionaries), `pretty_signs` (strings) | binary digits by induction on the list; lookups in dictionaries; structural induction on trees; induction on the string |
| C152 | `__str__` of `SetPart` and `SetPartComp` (the order of the pairs is the one in which python iterates) | numerals between delimiters can be read back uniquely; C37, C45, C60 |
| C153 | `WalshPerm.moved` | C34, C36; a set of numbers that is closed under `^` has a power of two as size (induction on the number of digits) |
| C154 | the attributes of `Boolf` that are computed when they are read for the first time, with their hidden variables (Model27; `Read` is a piece of code that reads and sets them) | invariant: a variable that is set holds the value of its attribute; it holds for a new object, and each read keeps it and returns that value (`Spec`, put together along the calls); C91, C92 exclude exceptions halfway; induction on the history |
| C155 | `refine_block` with labels (the type checks are left out) | invariant that labels are a bijection to blocks (C44); induction on the loop that sets the labels |
| C156 | `repeat_sequence`, `sequence_to_entry_counts`, `atom_indices_to_sequence`, `arity_to_walsh_matrix`, `int_to_sierpinski_row` (iteration order of a set is a parameter), `balanced_ternary_vector_to_string`, `matrix_to_vector`, `vector_to_matrix`, `intval_to_arity`, `intval_to_tt_length` | each entry is described by its binary digits; inductions on the lists |
| C157 | `bin2svg` with all its inner functions, branch by branch (`A/Svg.lean`); the matrix of corners is updated while the boundary is traced | The boundary of a set of squares is a set of directed unit steps (`A/SvgGeo.lean`); each corner has exactly one next and one previous corner. Invariant: the stored numbers encode exactly the corners not visited yet (`Shows`), so `step` follows `Next` (`stepLoop_spec`) and ends where it began; the first corner found is never a double one, so `oldval` is bound. `C157_area`: winding numbers, by summing over all corners; `C157_boundary`: each border exactly once; `C157_corners`: sides alternate; `C157_string`: the string determines the lines |
| C158 | `ec_clan_matrix_wiki` with its inner functions and `index_triples_to_valneg_html` (`Boolf/Model29.lean`); the printed strings are returned as a list | The format of the table is described independently (`WikiTable.lines`, `sigpermTable`, `Boolf/Props86.lean` and `Props87.lean`): data of cells, rows and headers, and how they are written. `C158_table`: the printed lines are those of a table with the described data; the borders in the inner tables by an invariant of the loop over the weights (`borders_iff`), the entries by that of the loop over the triples (`fillLoop_spec`); which triples belong to a cell, the splinters and the sizes come from C105 and C113-C116. `C158_base`: exactly one base cell; `C158_order`, `C158_errors` |
| C159 | `wiki_table_row` and its template (`Boolf/Model30.lean`), with the part of python's `Template` that it needs; `decimal_length` and the two float formats are parameters; the exceptions of the method have a type of their own | The parts of the template are computed by the kernel (`rowTemplate_parts`), everything else is symbolic (`substitute_row`). `C159_row`: the text and the meaning of its values; the value fraction is compared with that of the complement (C80), so it is never 1/2 (`value_half`); the last digit of the Zhegalkin index is the first entry (`zhe_first`). `C159_errors`, `C159_iff`: when there is a row |
| C160 | `print_segments`, `segment.string` (`Boolf/Model31.lean`); the printed text is represented by the printed objects | The dictionary of the patterns is described by `groupByPattern_spec` (loop invariant), the lines of a dimension by `dimensionLines_ok`, using C117, C118, C124. `Collection.read` represents that reading a `defaultdict` adds an empty dictionary. `C160_print`, `C160_names`, `C160_string` |
| C161 | `loop_hypersplits` (`Boolf/Model32.lean`); the changed collection is returned | Invariant of the loop: the collection grows (`Grows` of C117) in the set of vertices that is claimed; a collection that grows from a complete one, and contains the cores, is complete (`Grows.complete`). Cores by C90, `C161_created` for the function that is created. `C161_loop`, `C161_blight` |
| C162 | `val` for all kinds of arguments (`Boolf/Model33.lean`: `VArg`, `Boolf.valArgs` and `Boolf.valColumns` by mutual recursion on the first argument) | `valAny_sized`: with a list or Binv as first argument it is the loop over the places, each of them a call with the entries there (`colVal`); then the first error of the loop, and `C69_val` for bits. `C162_single`, `C162_many`, `C162_places`, `C162_errors` |
| C163 | `binary_length`, `decimal_length`, `is_power_of_two`, `log_floor`, `log_ceil`, `log_int`, `intval_to_arity`, `Binv(intval=...)` (`A/Log.lean`); the operations of python's `float` are a parameter (`Floats`), real numbers represent floats, `Py/Double.lean` says which of them are floats and what rounding to nearest is | `C163_accurate`: the logarithm of an integer that is not a power of the base is farther from the next integer than the accumulated error (`between`). `C163_correct`: for each power of two the rounded logarithm is pinned down between two floats with rational bounds for log 2 (`A/LogBounds.lean`, `powerTable`), and then the rounded quotient. `C163_models`: comparison with the exact models. `C163_collision`: rounding of `2**k ± 1` alone, for each library. `C163_deviations`, `C163_binv`, `C163_arity`; `correct_exists` shows that the hypotheses can be met |
| C164 | `WalshPerm.inverse` with an arbitrary real matrix as result of `np.linalg.inv` (`Walsh/Model2.lean`), `is_integer_matrix` | The entries of the inverse are multiples of 1/D, so an integral matrix that is closer is the inverse itself; then it is the exact model (C35). Otherwise the branch that uses the cycles (`inversePerm_spec`). `C164_inverse`, `C164_not_integral`, `C164_bound` |
| C165 | `order` with `np.lcm` on 64-bit integers (`Perm/Order64.lean`) | Each intermediate result divides the final one, so none of them overflows (`foldl_lcm64`); the range of the result otherwise. `C165_order`; `C165_negative` is a computation in the kernel together with C09 |
| C166 | the constructors `Boolf(tt, arity=...)` and `Boolf(zhe=...)` (`Boolf/Model34.lean`) and `Binv(intval=..., length=2**j)` (`A/Log.lean`) with the operations of `Floats` from C163 | `C166_binv`: for integers not too close below `2**2**j` the accumulated error is smaller than the distance of the logarithm from `2**j` (`log_lt`); rounding is monotone (`Nearest.mono`), and the logarithm of `2**2**j` is exact, because rounding commutes with powers of two (`Nearest.scale`, `log_pow_pow`), so integers from `2**2**j` on are rejected (`log_ge`). `C166_lengthError`: integers close below are converted to `2**2**j` (`nearest_close`). `C166_table`, `C166_table_lengthError`: the same for truth tables. `C166_zhe`, `C166_zhe_lengthError`: `intval_to_arity` gives the adicity or one more (`arity_cases`), and both give the same function, whose table has the same first digits (`zhe_table`). `C166_disjunction`: the example |
| C167 | the models of C70, C83 to C85, C87, C88 and C101 | All these properties describe parts by the true places of the function. `Replaced.up`/`down` turn true places of one function into those of the other, so ties between atoms (`Tied`), settled atoms and crossing atoms are transported. `C167_signed_permutation` follows by extensionality (`Replaced.part`). For the bloatless functions each representative atom of the one function is sent to the representative atom of the other, that is tied with its image (`Replaced.reps`), and negated accordingly (`Replaced.projected`); this gives `C167_clan_reduced` and, with C101, `C167_same_minrep`. The components of the crossing relation are counted by an injection in both directions (`Replaced.bundles_le`). |
| C168 | the three scripts with Cayley tables, for any number of places (`Scripts/Cayley.lean`); a pair in a domain is its place in the sorted list of pairs; the printing is not modelled | The labels entered are a list of (code, key of the product), so `C44_label_all` describes the finished partition; as this list is the same for signed permutations, matrices and cube vertex permutations, the three tables are equal. The keys are found because every signed permutation of `n` places has exactly one index (`Listed`, `Sigs`). `sign_part` and `sign_part_xor` compare the bits of the sign parts. Cancellation gives the Latin squares. For `mc_row_to_sc_matrix` the blocks are shown to be the rows with `Canon.ext`. |
| C169 | the three partitions of C94, C95 and C96 (`Boolf/Model10.lean`); no new definitions | `Labelling.count`: when each element can be moved to each other one by an injective map that respects equality of labels (`Movable`), all blocks have equal sizes. The elements of the faction and the clan are in bijection with the replacements of the atoms (`Subst`) by different atoms, negated or not; a replacement is moved to another one with a permutation that extends a partial injection (`Subst.move`). In the family the elements are moved by bitwise XOR. |
| C170 | `cycles`, `parity`, `order`, `inverse` and products of `Perm`; no new definitions | `cycleType_cycles`: the restriction of a permutation to a range is the product of the disjoint cycles in `cycles`, so its cycle type in the sense of Mathlib is the multiset of their lengths. Sign, conjugation and inverse are then theorems about cycle types; the conjugating permutation is built with `Perm(list)`. |
| C171 | `matrix`, `__mul__` and `inverse` of `SigPerm`, `parity` of `Perm`, `weight` of `Binv`, `integer_determinant`; no new definitions except `Mat.toRows`, which hands the numpy matrix to `integer_determinant` as a list of rows | The matrix is a permutation matrix with scaled columns, so by C25 and C16 its determinant is the sign times the product of the signs of the entries; these are counted by the weight, because the exponents in the negator are the images of the places with negative entries. The product of the signs is reindexed along the second factor. |
| C172 | `apply_on_vector` as inherited by `WalshPerm` (`Walsh.applyOnVector`, as for C143); `tt`, `walsh_spectrum` and the truth table constructor of `Boolf`, `transpose` of `WalshPerm` | The inverse of `WalshPerm` and that of `Perm` are the same function, so C12 applies. The counts in C71 for the new function are in bijection with those for the old one, because `w[x] & k` and `x & w.transpose[k]` have weights of the same parity (C35). |
| C173 | `cycle_partition`, products, powers and inverse of `Perm`; `join`, `<=` and `==` of `SetPart`; no new definitions | With C17 the blocks are the orbits; a step of the product is a step of one factor and one of the other, so it stays in a chain of the join (C40). For a partition the constructor with cycles moves every element to the next one of its block. |
| C174 | `inversion_set`, products and inverse of `Perm`, `Perm([[i, i+1]])`; no new definitions | With C16 an inversion is a pair in wrong order. Bijections between the sets of pairs give the counts; a permutation with inversions has one at neighbouring places, which a swap removes (induction on the number of inversions). |
| C175 | `zhe`, `twin` and values of `Boolf`; no new definitions | The minimal weight of Reed-Muller codes, by induction on the arity: the upper half of the table is the lower half xored with a function whose products are shorter by one atom, and the triangle inequality gives the bound. |
| C176 | `walsh_distances`, `make_linear_boolf`, `^` and complement of `Boolf`; no new definitions | With C80 the entries count disagreements with linear functions, and the xor of two linear functions is the one of the xored indices. The sum of the squares is Parseval's equation for the table with entries 1 and -1. |
| C177 | `ec_family`, the weight of the root, `is_male`; no new definitions | The block of 0 (C94) is a group of negation patterns that maps the set of true places of the root to itself without fixing any of them, so this set is a union of cosets. With C169 all blocks have the same size, a power of two. |
| C178 | `meet`, `join`, `<=`, `merge_pair` of SetPart; no new definitions (`rank` is specification) | The functions on the finite set of all elements that are constant on the blocks form a vector space, whose dimension is the number of classes (elements minus rank). The space of the join is the intersection of the two spaces and their sum lies in the space of the meet, so the dimension formula gives the inequality. |
| C179 | `cycles`, `cycle_partition`, `parity` and products of Perm, `merge_pair` of SetPart; no new definitions | With C178: the cycle partition of p times (a b) is below the one of p with a and b merged, and the other way round, so the ranks differ by at most one. The parities (C16, C170) differ. Equality of ranks of comparable partitions decides the direction. Induction over the rank gives a product of that many transpositions. |
| C180 | `zhe`, `walsh_distances`, `walsh_spectrum`; no new definitions | The sign of the function is a product of factors 1 - 2*(product of atoms). Multiplied out and summed over all places, every summand is a power of -2 times the number of places that contain a union of few sets. Adding a linear function does not change the bound, and C80 leads from the distances to the spectrum. |
| C181 | `patron_int`, `patron_index`, `is_noble`; no new definitions | For a function that does not depend on the last atom, the twin vanishes on the upper half of the table, so the upper half of the patron is the table itself. Nobles are determined by their upper halves (C72). |
| C182 | the models of C75 (prefects, consuls), C50 (twins, exclusive or) and C80 (`is_linear`) | the exponents of a linear function (`linAnf`) are 0 and powers of two; every xor over places is linear in the table (`xorSum_linAnf`), which gives the twin, the Walsh index and the oddness at once; `prefect_any` frees the prefect from the adicity |
| C183 | `zhe`, the operators, `apply_sigperm`, `apply_on_vector` of Walsh permutations, `is_linear`; no new definitions | `Deg n d u` bounds the digits of the exponents of a table. It is closed under sums; products add the bounds (products of monomials are unions); substitution of functions of degree e multiplies them (`Deg.subst`). Literals and digits of Walsh permutations have degree 1; the converse uses the inverse |
| C184 | `order`, `pow`, `mul`, `parity` of permutations; no new definitions | `order` is the order of the bijection in the group of all bijections of the naturals (`order_orderOf`); the laws are those of Mathlib for elements of groups; the parity of powers by induction over the integers with C16 |
| C185 | `walsh_distances` of `Boolf`; specification `changes` (number of places where the value changes along a direction); no new model definitions | With C80 the number 2^n - 2·d[k] is a sum of signs. Its square is the transform of the numbers of changes (`square_sum`), and orthogonality of the characters inverts that (`sum_square`). |
| C186 | `weight_fract`, `bitwise_le`, the operators of `Boolf`; no new definitions | With C80 all fractions are sums over the places below a common power of two (`share_spec`), compared place by place; the order with C53 and extensionality (C48) |
| C187 | `twin` and `reverse` of `Boolf`; no new model definitions | Both paths give the sum over the places containing the digits of j (`supXor`): for one path by exchanging the sums and counting subsets (`subXor_sup`), for the other by substituting the complement of the place; three steps with the involutions of C50 and C52 |
| C188 | `pow`, `inverse`, `transpose`, `mul` of Walsh permutations; no new definitions | With C34 and C35 every Walsh permutation is a bijection of the naturals and its powers are those of the group; the transpose of w * w.inverse is neutral, so the transposes are inverse to each other; the bijection stays within blocks of 2^degree numbers, so by the pigeonhole principle the factorial of 2^degree is an exponent giving the neutral element |
| C189 | `left_rank`, `right_rank` and the constructor of `Perm`; no new definitions | Both ranks are `rankR` of a list (from C54 and C55); by induction the counts of smaller and of larger entries to the right add up to the number of entries to the right, and the sum of i·i! telescopes (`rankR_comp`) |
| C190 | `intval`, `meet`, `join`, `__le__` of `SetPart`; no new definitions | Every number is a + (0 + ... + (b-1)) for some a < b, so C43 describes all digits; C39 and C41 describe meet, join and order by joined pairs. Results of `meet` and `join` carry no remembered values (`newPart_fresh`) |
| C191 | `SigPerm.__mul__`, `inverse`, `keyneg_index`, `valneg_index`; no new definitions | Digits of both negators tell the signs of entries (`valneg_bit`, `keyneg_bit`); the signs and absolute values of products and inverses follow from `mul_spec` and `inverse_spec` of C32 |
| C192 | `schoute_perm` of `SigPerm`, constructor, `transpose` and `inverse` of `WalshPerm`; no new definitions | C135 gives the digits of the images; without negations they are linear, and with a negation 0 is not fixed, so C34 decides. The transpose is identified with the inverse by the parity of common digits (C35) |
| C193 | `left_rank`, `int_to_perm`; no new definitions | The left rank is `rankR` of the reversed complementary arrangement (C55); its first summand is n - p[n] times n!, and the rest is below n! |
| C194 | `pair`, `keyneg_index`, `length` and constructor of `SigPerm`; no new definitions | From C193 for the permutation, C26 for the negator, and the signs of entries for `keyneg_index` |
| C195 | `atomvals`, `adicity` and `zhe` of `Boolf`; no new definitions | Reading the function at a key without digit a means to drop the exponents with digit a (`subXor_clearBit`); with the involution of the transform (C50) and the atoms as those the value depends on (C48) |
| C196 | `apply_sigperm` and `zhe` of `Boolf`, `schoute_perm` of `SigPerm`; no new definitions | The digits of Schoute images (C135) are the values of the substituted atoms (C70); the transform commutes with permutations of digits (`subXor_pre`) |
| C197 | `apply_sigperm` and `zhe` of `Boolf`, `schoute_perm`, products and inverses of `SigPerm`; no new definitions | From C196: the Schoute permutation is surjective, and functions with equal tables or equal Zhegalkin indices are equal; the group laws from C70 |
| C198 | `is_symmetric` and `apply_sigperm` of `Boolf`; no new definitions | With C197; a permutation of the atoms keeps their number in a key (C78), and conversely the exchange of two atoms is a signed permutation (`swap_sigperm`) |

`MANIFEST.json` lists the theorems of each property (`tools/manifest.py` generates it from the theorem names).

## Which code is modelled

| source (in `discretehelpers/`) | Lean |
|---|---|
| `perm/` | `Verif/Perm` |
| `a/` (the helpers used by the classes, and those named in C19-C25, C56, C110-C112, C121-C134, C136, C147-C150, C156, C157) | `Verif/A`, `Verif/Walsh/Linear.lean`, `Verif/SetPart/Model2.lean`, `Verif/Perm/Slice.lean`, `Verif/Boolf/Model25.lean`, `Verif/Boolf/Model26.lean` |
| `binv/` | `Verif/Binv` |
| `sig_perm/` | `Verif/SigPerm` |
| `walsh_perm/` | `Verif/Walsh` |
| `set_part/` | `Verif/SetPart` |
| `set_part_comp/` | `Verif/SetPartComp` |
| `boolf/` (constructor, tables, operators, twins, substitution, spectra, nobles, patrons, consuls, prefects, foibles, filtrates and atom pairs, layers, coordinates, linearity, fractions, distances, roots, splits, combined splits, bloat, blot, blight and their removal, gaps, bundles, full spots by weight, hypersplits, fissions, segments, equivalence classes under negation and permutation of atoms, symmetries, moved colors, swans, ring count vectors, changed tables, signed atoms, signed adjacency matrices, variants of the Walsh spectrum) | `Verif/Boolf` |

Not modelled: plotting, printing (apart from `ec_clan_matrix_wiki` and `print_segments`), files (`file_write`), tests and examples, checks of types
(`type_like_int`, `type_clean_int`) and helpers for tests (`try_except`, `is_error`, `have`, `true_except`),
one-line wrappers (`bitwise_smaller`, `bitwise_lt`, `__repr__`, `__hash__`), the empty `SigPerm.__pow__`, and python features outside the calls (object identity,
garbage; caching only where C44 and C154 say so).

## Simplifications

* Floating point: `binary_length`, `is_power_of_two`, `log_int`, `log_floor`, `intval_to_arity` and the entries in `WalshPerm` are exact numbers in the model.
  C164 has an arbitrary result of `np.linalg.inv`, and shows which errors do not matter.
  For huge arguments the python functions can differ (e.g. `intval_to_arity` overestimates near powers of two, which does not change the result of C50).
  C163 has floating point numbers, and shows that the exact functions are right below `2 ** 44` (`is_power_of_two` below `2 ** 29`).  It assumes that the floating
  point operations round to nearest, and that so do the logarithms of the C library (`Floats.Correct`), or that their relative error is at most `2 ** -52`
  (`Floats.Accurate`).  These are hypotheses of the theorems, not axioms.  The exponent of the floating point numbers is not limited, so the theorems say something about python only for integers below `2 ** 1024`.
* `sympy.fwht`/`ifwht` are modelled by their known algorithm (butterfly stages; zero filling to a power of two).
* `np.int64` overflow is ignored, except in C165, where `np.lcm` has 64 bits. Python's limit on the depth of recursion is not modelled.
* The components of a graph of `networkx` are given by reachability, not by its algorithm.
* Arguments have the types stated in the models. Other types (strings for numbers, numpy arrays for lists) are not modelled unless a definition says so.
* Keys of `Boolf.__getitem__` are natural; fullspots and atoms are integers.

## Deviations of the code from the expected behaviour

Found while proving; the named theorems state the actual behaviour.

* `Perm(cycles)` accepts overlapping cycles, and the result need not be a permutation (C03_any_cycles, C03_bijective_iff, C03_overlapping_cycles).
* `right_rank` is only injective among permutations of equal length (C54_right_rank_not_injective).
* `Binv(intval=0, length=0)` has length 1 (C26_intval_roundtrip_fails_for_empty); `Binv(exposet=[], minimal_length=n)` raises ValueError
  (C26_exposet_minimal_length_empty).
* `SigPerm` with an over-long `valneg` is not equal to the object it represents (C31_long_valneg); `SigPerm(matrix)` is unchecked (C31_matrix_unchecked).
  A pair together with other arguments raises ArgComboError only if none of them is a `Binv`, a `Perm` or a matrix with more than one entry
  (C31_pair_combination).
* `schoute_perm` of periodic `Perm` objects does not respect products (C135_periodic_product).
* `WalshPerm(perm=[0, 1, 2, 3, 4, 5, 7, 6], trust=True)` is the neutral element, and with `trust` a singular matrix fails only when `mapping` is read
  (C34_trust_wrong).
* `WalshPerm` takes the singular matrix diag(0, 1, …, 1) for the neutral element (C34_singular); `walsh_function_to_index('1')` raises IntvalError
  (C29_walsh_function_to_index_lengths).
* `SetPart`: `blocks_with_singletons` on the trivial partition of the integers raises ValueError (C58_default); `join` always has the domain N (C40_domain_lost);
  `<=` raises for other domains (C41_le_other_domains); cached values are not updated by merges, and the canonical list can become a mixture
  (C42_outdated, C42_mixed_list); labels and blocks that are outdated (C44_outdated_blocks, C44_forgotten_labels);
  `refine_block` raises exceptions about labels when it has already changed the blocks (C59_wrong_number_of_labels, C155_refine_labels_errors), forgets all
  labels when only singletons are left (C155_refine_labels), and hides the labels of blocks that are not ascending (C155_unsorted_block).
* `SetPartComp`: the constructor draws no conclusions and accepts the pair (0, 0) (C60_no_conclusions, C60_self_pair); `set_comp(a, a)` and
  `set_equal(a, a)` on singletons (C46_same_argument, C46_set_equal_same_argument).
* `Boolf.val` does not look at the other arguments when the first is an empty list (C162_many), and raises TypeError for nested lists (C162_places).
* `Boolf.bitwise_gt` is not strict (C53_order); the constructor hangs for unmatched combinations like `Boolf(arity=3)` (C65_hangs_iff);
  unsorted atoms are read by the inverse permutation (C64_order_of_digits), and differently for tables and fullspots (C68_order_of_atoms);
  negative fullspots count from the end (C68_negative); constant tables accept any length, and negative atoms (C64_with_atoms, C64_without_atoms);
  `skip_deflation` makes objects that differ from the canonical one (C66_inflated_differs); `apply()` and `val()` without arguments on constants raise
  IndexError (C69_val, C69_apply); spectra of other lengths are filled with zeros (C71_filled).
* `is_noble(0)` is true for the constant 1, but `noble_to_index(1, 0)` is rejected (C72_is_noble, C72_arity_zero).
* `filtrated_boolf` inherits the order of digits from the constructor (C76_wrong_order); `filtrated_pair(a, b)` for `a > b` exchanges the atoms only for
  the strings 1011 and 1101 (C77_pair_descending, C77_pair_wrong).
* `hasse_matrix_coordinates_to_tt` does not invert `hasse_matrix_coordinates` for arity 0, because `Binv(intval=0, length=0)` has length 1 (C79_roundtrip_zero);
  `is_solid` is only usable from arity 2 on (C79_solid_errors).
* `bundles` and `bundle_overlap_counts` raise BoolfNotBlightlessError for functions that are not bloatless, but not for those that are bloatless and not
  blightless (C88_bundles, C88_bundle_overlap_counts).
* `blightless_spotint` of the constant 1 raises LengthError, although `bloatless_spotint` works (C85_spotint_constant); `splits_combined([])` is `[]` and not
  the class of all full spots (C86_exceptions).
* `int_to_sierpinski_row(intval)` iterates over a python set, and CPython does not iterate over {1, 8} in ascending order; so `family_minrep` is `None` for
  some functions with 9 arguments (C99_none), and `clan_minrep` raises AssertionError for some (C101_assertion).
* `ec_clan(arity, suppress_abbreviation=True)` never ends for the constant False, and for the constant True with arity 0 (C96_constant_diverges).
* `is_noble` of an object made with `skip_deflation` that is inflated is always `False`, even if the object and its twin have the same values
  (C72_inflated, C72_inflated_twin).
* `splits_onesided` of an object made with `skip_deflation` and only one atom is always `[True]` (C82_onesided_inflated).
* `str` of an object made with `skip_deflation` can be the string of a different function (C104_inflated).
* `ec_clan_partitioned` of a function that is not a root depends on the iteration order of a set, and can miss members of the clan (C105_not_root).
* `sort_together` of empty lists returns `()` instead of a tuple of empty lists (C110_errors); so do `sort_rows_together` and `sort_cols_together` for
  matrices without rows or columns (C111_errors).
* `create_hasse_matrix([])` raises `TypeError` (C121_empty).
* `make_transposition` accepts negative places, but then the result contains a negative number, or nothing is exchanged (C128_negative).
* `find_integer_partitions(0)` is `{(0,)}` instead of the set of the empty tuple (C122_not_positive).
* `boolfs_to_swan` uses the formatted string of the table, so it raises PrettyLengthError for functions with adicity above 6 (C141_error).
* The README of `mod_tt_perm` shows the result for the inverse of the permutation; the code agrees with the tests (C143_readme).
* `mod_tt_neg` raises AttributeError for a list or a `Binv`, because `Binv` has no attribute `index` (C143_neg_types).  Only integers work.
* Negative numbers in a slice of a `Perm` do not count from the end, so `p[::-1]` is empty (C148_perm); a `WalshPerm` that is not neutral has no attribute
  `length`, so it has no slices (C148_walsh_perm).
* `filtrated_pairs_pretty` accepts lists of names that are longer than the valency and not unique (C149_repeated_names); without argument it shows letters or
  atomvals, while the documentation says atomkeys, and it raises `ValueError` for the constants (C149_default).
* `fullspotlinks_by_atom_pretty` never works, because the class has no attribute `fullspotlinks_by_atom` (C150_fullspotlinks); `hypersplits_pretty` and
  `hypersplits_potential_cores_pretty` raise `TypeError` for numbers as names, which are the default when an atom is above 25 (C150_default).
  `print_segments` does the same, if there is an edge; it raises `ValueError` for constants (C160_names).
* `logic_negate` accepts the flag `'0'`, but negates (C22_flag_strings).
* `multigrade_bitwise` of fewer than two integers returns a list (C151_bitwise_few); `subdict` without the optional argument `fresh` always raises
  `AttributeError` (C151_subdict_without_fresh); `default_to_regular_dict` does not enter regular dictionaries (C151_regular_unchanged).
* `decimal_length(1000)` is 3, because `log(1000, 10)` is slightly below 3 as a floating point number; `is_power_of_two(2 ** 29)` is `False`, because
  `log(2 ** 29, 2)` is slightly above 29 (C163_deviations); so `sequence(length=2 ** 29)` of a `WalshPerm` is rejected.
* `Binv(intval=2**k-1, length=k)` raises `LengthError` for big `k`, because `2**k - 1` and `2**k` are the same floating point number (C163_collision, C163_binv); for the
  same reason `log_int(2**k - 1)` is accepted, and `intval_to_arity(2**64 - 1)` is 7 (C163_arity).
* `Boolf(2**64 - 2, arity=6)` and `Boolf(zhe=2**64 - 2)`, the disjunction of six atoms, raise `LengthError` (C166_disjunction); so does each table of six or more arguments
  that ends with 55 true values, when it is given as integer or by its Zhegalkin index (C166_table_lengthError, C166_zhe_lengthError).
* The `order` of a permutation can be negative, because the least common multiple has only 64 bits (C165_negative).

Noticed while reading, but not the subject of a theorem:

* `SigPerm.__pow__` has no body and returns None.
* `Binv(exposet=...)` accepts negative numbers, which count from the end (used in the model, see `setTrue`).
* The assertion in line 67 of `ec_clan_matrix` compares the number of keys of a dictionary with the number of its values, so it can not fail.
* `_clan_minrep_prototype` lacks the assertion of `clan_minrep` on the order of the keys, so for more than 8 arguments it can not be expected to notice the wrong order.
* `noble_quadrant` of a constant with arity 0 reads entry 1 of a table of length 1.
* `SetPart`, `SetPartComp` and `WalshPerm` define `__eq__` without `__hash__`, so their objects can not be elements of sets or keys of dictionaries.
* The string of a `SetPart` with the empty finite domain shows `{}`, which is a dictionary when it is read by python.
* `WalshPerm(perm=Perm())` raises `ValueError`, and `sequence(length=n)` of the neutral `WalshPerm` raises `TypeError`.
* `make_linear_binv` accepts negative numbers for `walsh`.
* `wiki_table_row` removes the first character of `format(_, '.20g')`, but for weight fractions below 0.0001 (at least 14 arguments) this is in scientific notation, so a digit is lost.
* `minor_places_to_do` in `bloatless_spotint` is never reduced.
* The getters of `Boolf` that store a value return the stored list itself, so a caller who changes the list changes what is read later (C154 is about reads only).
* `faction_luckyrep` and its variants, `spot_atoms`, `diagonal_count` and others get a hidden variable in `set_dummies`, but there is no such attribute.
* The attributes of fissions, their weights and the zipped spectra have hidden variables that are never set, so they are computed with each read.

## Tests of the theorems

`tools/citations.py` prints the first and the last source line of every cited range; these were compared with the model definitions. `tools/anchors.py` checks the anchors.

`seeded/LOG.jsonl` has one line per wrong program (made with `tools/mutate.py` in a scratch copy).
Edits that do not change the behaviour are not logged.

How to read the log, and what it does not show:

* `failed` lists the theorems whose proof scripts broke. A broken script is not a proof that the statement became false. In a few cases the statement was found to
  stay true, and a theorem was added (see `note` and `tightened`); this was not checked for every line. Lines whose note says "statement refuted" are those where an instance of the
  statement was evaluated to false in the kernel.
* Most builds were stopped shortly after the first error (`--first`). So `failed` is often only the lowest lemma that depends on the edited definition: 896 of the
  first 1450 lines name helper lemmas and no `Cnn` theorem. That the `Cnn` theorem fails as well was not tried for these lines.
* For most edits generated by a script, `claim` was filled in afterwards: it is the property of the nearest `Cnn` theorem that uses a failed theorem, by a search for names in the
  sources. It was not chosen before the attempt.
* Edits that did not type check or did not terminate were left out. Edits were left out as not changing the behaviour by reading them, without proof.
* Lines are attempts, not independent ones: most are small edits (an inverted condition, a changed bound) of the same kind.

## Tests of the models

`Verif/Tests/` replays the project's own test files on the models: each `example` names the lines of the test file whose assertions it evaluates in the kernel. These
examples prove no property; they check that the models are models of this code. Assertions about types that the models do not have, and about the inverse of a
`WalshPerm` (not computable in the model; tested by products instead), are left out. Clans of 4-ary functions are left out as well (384 signed permutations each;
the kernel would need minutes).
